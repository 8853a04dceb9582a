import Verif.Whole.Model
import Verif.Empty.Spec
import Verif.CddV.Spec
import Verif.Regular.Count
import Mathlib.LinearAlgebra.LinearIndependent.Defs

/-!
# Specification for C91: the file, the number wanted, and what cddlib is trusted with
-/

namespace Verif.Whole

open Verif.Barvinok Verif.Files Verif.Preprocess Latte.Decimal

variable {n : ℕ}

/-! ## The file -/

/-- A list of numbers, each followed by a blank. -/
def numbers (l : List ℤ) : List Char := l.flatMap fun z => printInt z ++ [' ']

/-- A section of the file: keyword, number of entries, entries. -/
def sectionText (keyword : List Char) : Option (List ℕ) → List Char
  | none => []
  | some l => keyword ++ [' '] ++ numbers ((l.length : ℤ) :: l.map fun e : ℕ => (e : ℤ)) ++ ['\n']

/-- The text of the file that describes a problem: a line with the sizes, a line for each row, and the lines `linearity` and `nonnegative` in this order. -/
def text (P : Empty.Problem n) : List Char :=
  numbers [(P.rows.length : ℤ), (n : ℤ) + 1] ++ ['\n'] ++ P.rows.flatMap (fun r => numbers (r.1 :: List.ofFn r.2) ++ ['\n']) ++
    sectionText kwLinearity P.linearity ++ sectionText kwNonnegative P.nonnegative

/-- **Specification.** The integer points that meet all conditions of the problem. -/
def integerPoints (P : Empty.Problem n) : Set (Fin n → ℤ) :=
  {z | (∀ r ∈ P.rows, 0 ≤ r.1 + ∑ k, r.2 k * z k) ∧
    (∀ e ∈ P.linearity.getD [], ∀ r, P.rows[e - 1]? = some r → r.1 + ∑ k, r.2 k * z k = 0) ∧
    ∀ k : Fin n, (k : ℕ) + 1 ∈ P.nonnegative.getD [] → 0 ≤ z k}

/-! ## cddlib -/

/-- A fraction as a real number. -/
noncomputable def rawR (q : RawQ) : ℝ := (q.1 : ℝ) / (q.2 : ℝ)

/-- The value `b + a · x` of a row. -/
noncomputable def value (r : List RawQ) (x : Fin n → ℝ) : ℝ := rawR (r.getD 0 (0, 1)) + ∑ k : Fin n, rawR (r.getD (k + 1) (0, 1)) * x k

/-- The rows that are equations (`true`), or that are inequalities (`false`). -/
def part (M : LMatrix) (eq : Bool) : List (List RawQ) := (M.rows.zipIdx.filter fun p => decide (p.2 + 1 ∈ M.linset) == eq).map (·.1)

/-- The points that meet some equations and inequalities. -/
def Sols (n : ℕ) (E I : List (List RawQ)) : Set (Fin n → ℝ) := {x | (∀ r ∈ E, value r x = 0) ∧ ∀ r ∈ I, 0 ≤ value r x}

/-- **Contract of `dd_MatrixCanonicalize`** for inequalities and equations with a common solution: the result consists of rows of the matrix, has the same solutions,
its equations are independent and no inequality follows from the other conditions. -/
structure Canonical (n : ℕ) (M M' : LMatrix) : Prop where
  cols : M'.colsize = M.colsize
  rows : ∀ r ∈ M'.rows, r ∈ M.rows
  same : Sols n (part M' true) (part M' false) = Sols n (part M true) (part M false)
  independent : LinearIndependent ℝ fun (i : Fin (part M' true).length) (k : Fin n) => rawR (((part M' true).get i).getD (k + 1) (0, 1))
  irredundant : ∀ l₁ r l₂, part M' false = l₁ ++ r :: l₂ → ∃ x ∈ Sols n (part M' true) (l₁ ++ l₂), value r x < 0

def CanonicalizeOk (f : LMatrix → LMatrix) : Prop :=
  ∀ n M, M.generator = false → M.colsize = n + 1 → (∀ r ∈ M.rows, r.length = n + 1) → (Sols n (part M true) (part M false)).Nonempty → Canonical n M (f M)

/-- **Contract of `dd_MatrixCanonicalize`**, second part: inequalities that hold with equality for all solutions have become equations, so that some solution meets all inequalities strictly. -/
def CanonicalizeStrict (f : LMatrix → LMatrix) : Prop :=
  ∀ n M, M.generator = false → M.colsize = n + 1 → (∀ r ∈ M.rows, r.length = n + 1) → (Sols n (part M true) (part M false)).Nonempty →
    ∃ x ∈ Sols n (part (f M) true) (part (f M) false), ∀ r ∈ part (f M) false, 0 < value r x

/-- **The contracts of all tools**: linear programs (C86), canonical form, vertices and adjacencies (C88), lattice reduction (C17), triangulations (C75). -/
structure Tools.Ok (T : Tools) : Prop where
  lp : Empty.CddOk T.lp
  canonicalize : CanonicalizeOk T.canonicalize
  vertices : ∀ d ineqs, CddV.CddOk ineqs (T.vertices d ineqs).1 (T.vertices d ineqs).2
  ntl : ∀ d, (T.ntl d).Ok
  triangulate : ∀ d t, Regular.TriangulationOk (T.triangulate d t)

end Verif.Whole
