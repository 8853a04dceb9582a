import Verif.Optimize.Model
import Verif.Barvinok.Spec
import Mathlib.Topology.Bornology.Constructions
import Mathlib.Topology.MetricSpace.Bounded
import Mathlib.Analysis.Normed.Group.Constructions
import Mathlib.Algebra.Order.Archimedean.Real.Basic
import Mathlib.Data.Set.Card

/-!
# What the answer of the optimization programs should be

Independent of the model: the polyhedron given by equations and inequalities, its lattice points, the greatest value of the cost function on them.  Then the
meaning of the two kinds of files, and the contracts of cdd and `count`.
-/

namespace Verif.Optimize

open Verif.Barvinok (Vec)
open Verif.Barvinok.Spec (dot)

variable {n : ℕ}

/-- Specification: the points with `b + a · x = 0` for the equations and `b + a · x ≥ 0` for the inequalities. -/
def Feasible (eqs ineqs : List (Row n)) : Set (Fin n → ℝ) :=
  {x | (∀ r ∈ eqs, (r.1 : ℝ) + dot r.2 x = 0) ∧ ∀ r ∈ ineqs, 0 ≤ (r.1 : ℝ) + dot r.2 x}

/-- Specification: the lattice points of a set. -/
def Lattice (S : Set (Fin n → ℝ)) : Set (Vec n) := {z | (fun i => (z i : ℝ)) ∈ S}

/-- Specification: `v` is the greatest value of the cost function on the lattice points of the polyhedron, and `k` lattice points have this value. -/
def IsMaximum (eqs ineqs : List (Row n)) (cost : Vec n) (v k : ℤ) : Prop :=
  IsGreatest ((fun z => ∑ i, cost i * z i) '' Lattice (Feasible eqs ineqs)) v ∧
    k = ({z ∈ Lattice (Feasible eqs ineqs) | ∑ i, cost i * z i = v}.ncard : ℤ)

/-- Specification: the same for the least value. -/
def IsMinimum (eqs ineqs : List (Row n)) (cost : Vec n) (v k : ℤ) : Prop :=
  IsLeast ((fun z => ∑ i, cost i * z i) '' Lattice (Feasible eqs ineqs)) v ∧
    k = ({z ∈ Lattice (Feasible eqs ineqs) | ∑ i, cost i * z i = v}.ncard : ℤ)

/-! ## The files -/

/-- Meaning of a file in LattE format: rows are counted from one, and those in `linearity` are equations. -/
def LatteFile.Sol (F : LatteFile n) : Set (Fin n → ℝ) :=
  {x | ∀ (i : ℕ) (h : i < F.rows.length),
    0 ≤ ((F.rows[i]).1 : ℝ) + dot (F.rows[i]).2 x ∧ (i + 1 ∈ F.linearity → ((F.rows[i]).1 : ℝ) + dot (F.rows[i]).2 x = 0)}

/-- The numbers in the first line are right, and the numbers in `linearity` are numbers of rows. -/
def LatteFile.WellFormed (F : LatteFile n) : Prop :=
  F.numRows = F.rows.length ∧ F.numCols = n + 1 ∧ ∀ i ∈ F.linearity, 1 ≤ i ∧ i ≤ F.rows.length

/-- Meaning of a file for cdd. -/
def LpFile.Sol (F : LpFile n) : Set (Fin n → ℝ) := {x | ∀ r ∈ F.rows, 0 ≤ (r.1 : ℝ) + dot r.2 x}

/-- The numbers in the line after `begin` are right. -/
def LpFile.WellFormed (F : LpFile n) : Prop := F.numRows = F.rows.length ∧ F.numCols = n + 1

/-! ## Contracts -/

/-- The point with the given numerators and denominators. -/
def point (x : Fin n → ℤ × ℤ) : Fin n → ℚ := fun i => (x i).1 / (x i).2

/-- The same point with real coordinates. -/
noncomputable def pointR (x : Fin n → ℤ × ℤ) : Fin n → ℝ := fun i => ((point x i : ℚ) : ℝ)

/-- cdd: if the set of solutions is nonempty and bounded, the result is a solution with the greatest value of the objective, with nonzero denominators. -/
def LpOk (lp : LpFile n → Fin n → ℤ × ℤ) : Prop :=
  ∀ F, F.WellFormed → F.Sol.Nonempty → Bornology.IsBounded F.Sol →
    (∀ i, ((lp F) i).2 ≠ 0) ∧ pointR (lp F) ∈ F.Sol ∧ ∀ x ∈ F.Sol, dot F.objective.2 x ≤ dot F.objective.2 (pointR (lp F))

/-- `count`: for a bounded polyhedron the number of lattice points, if there are any solutions at all; for an empty polyhedron `CheckEmpty` throws an
exception (CheckEmpty.cpp:173–179) and the status is 1 (countDriver.cpp:30–36). -/
def CountOk (count : LatteFile n → Option ℤ) : Prop :=
  ∀ F, F.WellFormed → Bornology.IsBounded F.Sol →
    (F.Sol = ∅ → count F = none) ∧ (F.Sol.Nonempty → count F = some ((Lattice F.Sol).ncard : ℤ))

end Verif.Optimize
