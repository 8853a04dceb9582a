import Verif.Empty.Model
import Mathlib.Data.Real.Basic
import Mathlib.Algebra.BigOperators.Fin

/-!
# C86: what the test for emptiness should say

The problem the user describes, the file that describes it, and what cdd is trusted with.
-/

namespace Verif.Empty

variable {n : ℕ}

/-- A polyhedron as the user gives it: rows `b + a · x ≥ 0`; the numbers (from one) of the rows that are equations, if there is such a section; the numbers of
the nonnegative variables, if there is such a section; and whether this section comes first. -/
structure Problem (n : ℕ) where
  rows : List (ℤ × (Fin n → ℤ))
  linearity : Option (List ℕ)
  nonnegative : Option (List ℕ)
  nonnegFirst : Bool

/-- **Specification.** The points that meet all conditions. -/
def Problem.Solutions (P : Problem n) : Set (Fin n → ℝ) :=
  {x | (∀ r ∈ P.rows, 0 ≤ (r.1 : ℝ) + ∑ k, (r.2 k : ℝ) * x k) ∧
    (∀ e ∈ P.linearity.getD [], ∀ r, P.rows[e - 1]? = some r → (r.1 : ℝ) + ∑ k, (r.2 k : ℝ) * x k = 0) ∧
    ∀ k : Fin n, (k : ℕ) + 1 ∈ P.nonnegative.getD [] → 0 ≤ x k}

/-- **Specification.** The directions in which the polyhedron goes on for ever (if it is not empty): the solutions of the homogeneous conditions. -/
def Problem.Directions (P : Problem n) : Set (Fin n → ℝ) :=
  {x | (∀ r ∈ P.rows, 0 ≤ ∑ k, (r.2 k : ℝ) * x k) ∧
    (∀ e ∈ P.linearity.getD [], ∀ r, P.rows[e - 1]? = some r → ∑ k, (r.2 k : ℝ) * x k = 0) ∧
    ∀ k : Fin n, (k : ℕ) + 1 ∈ P.nonnegative.getD [] → 0 ≤ x k}

/-- The numbers in the sections are numbers of rows and variables, and there are no more equations than rows. -/
structure Problem.Ok (P : Problem n) : Prop where
  lin : ∀ e ∈ P.linearity.getD [], 1 ≤ e ∧ e ≤ P.rows.length
  nonneg : ∀ j ∈ P.nonnegative.getD [], 1 ≤ j ∧ j ≤ n
  few : (P.linearity.getD []).length ≤ P.rows.length

/-- A section of the file. -/
def sectionToks (name : String) : Option (List ℕ) → List Tok
  | none => []
  | some l => .word name :: .num l.length :: l.map fun e : ℕ => .num e

/-- The file in LattE format. -/
def Problem.file (P : Problem n) : List Tok :=
  .num P.rows.length :: .num (n + 1) :: (P.rows.flatMap fun r => .num r.1 :: List.ofFn fun k => .num (r.2 k)) ++
    if P.nonnegFirst then sectionToks "nonnegative" P.nonnegative ++ sectionToks "linearity" P.linearity
    else sectionToks "linearity" P.linearity ++ sectionToks "nonnegative" P.nonnegative

/-! ## cdd -/

/-- The value `t * b + a · x` of a row of a file for cdd. -/
noncomputable def rowValue (row : List ℤ) (t : ℝ) (x : Fin n → ℝ) : ℝ := t * ((row.headD 0 : ℤ) : ℝ) + ∑ k : Fin n, ((row.getD (k + 1) 0 : ℤ) : ℝ) * x k

/-- The points that meet all rows of a file for cdd in dimension `n`. -/
def LpFile.Solutions (F : LpFile) (n : ℕ) : Set (Fin n → ℝ) := {x | ∀ row ∈ F.rows, 0 ≤ rowValue row 1 x}

/-- The solutions of the homogeneous rows. -/
def LpFile.Directions (F : LpFile) (n : ℕ) : Set (Fin n → ℝ) := {x | ∀ row ∈ F.rows, 0 ≤ rowValue row 0 x}

/-- **Contract of cdd.**  No result is written if the number of rows is wrong (`end` is expected after that many rows).  Otherwise there is a result; if there is a
feasible point, it contains a solution or, if the objective is unbounded, a direction; if there is none, and the objective is bounded in all directions (then the dual problem is
feasible), it contains neither.  If both problems are infeasible, nothing is assumed. -/
structure CddOk (cdd : LpFile → Option (List String)) : Prop where
  malformed : ∀ F, F.numRows ≠ F.rows.length → cdd F = none
  result : ∀ F n, F.numRows = F.rows.length → F.numCols = n + 1 → (∀ row ∈ F.rows, row.length = n + 1) → F.objective.length = n + 1 →
    ∃ words, cdd F = some words ∧
      ((F.Solutions n).Nonempty → "primal_solution" ∈ words ∨ "primal_direction" ∈ words) ∧
      (F.Solutions n = ∅ → (∀ x ∈ F.Directions n, rowValue F.objective 0 x ≤ 0) → "primal_solution" ∉ words ∧ "primal_direction" ∉ words)

end Verif.Empty
