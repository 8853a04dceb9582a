import Mathlib.Data.Real.Basic
import Mathlib.LinearAlgebra.Matrix.Notation

/-!
# Specification: simplicial cones as sets of real points

Independent of the program: a simplicial cone is the set of non-negative combinations of the rows
of an integer matrix.
-/

namespace Verif.Barvinok.Spec

open scoped Classical

/-- The point `∑ aᵢ · rowᵢ(A)`. -/
noncomputable def comb {n : ℕ} (A : Matrix (Fin n) (Fin n) ℤ) (a : Fin n → ℝ) : Fin n → ℝ :=
  fun k => ∑ i, a i * (A i k : ℝ)

/-- The cone generated by the rows of `A`. -/
def cone {n : ℕ} (A : Matrix (Fin n) (Fin n) ℤ) : Set (Fin n → ℝ) :=
  {x | ∃ a : Fin n → ℝ, (∀ i, 0 ≤ a i) ∧ x = comb A a}

/-- `x` lies on a facet hyperplane of the cone of `A`: it is a combination of the rows with one
coefficient zero. -/
def OnFacetPlane {n : ℕ} (A : Matrix (Fin n) (Fin n) ℤ) (x : Fin n → ℝ) : Prop :=
  ∃ a : Fin n → ℝ, (∃ i, a i = 0) ∧ x = comb A a

/-- Indicator function of a set, integer valued. -/
noncomputable def ind {n : ℕ} (S : Set (Fin n → ℝ)) (x : Fin n → ℝ) : ℤ := if x ∈ S then 1 else 0

/-- Scalar product of an integer vector with a real point. -/
noncomputable def dot {n : ℕ} (f : Fin n → ℤ) (x : Fin n → ℝ) : ℝ := ∑ k, (f k : ℝ) * x k

end Verif.Barvinok.Spec
