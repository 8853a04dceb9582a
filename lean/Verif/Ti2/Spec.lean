import Verif.Regular.Contracts

/-!
# Specification of the ray algorithm of 4ti2

4ti2 is not part of the code modelled.  Its `RayAlgorithm` is given a matrix and a set of coordinates; it computes the extreme rays, and a basis of the
lineality space, of the cone of all vectors in the kernel of the matrix with non-negative entries at these coordinates.
-/

namespace Verif.Ti2

variable {R L : ℕ}

/-- An integer vector as a real one. -/
def toR (v : Fin L → ℤ) : Fin L → ℝ := fun j => (v j : ℝ)

/-- **Specification.** The cone given by a matrix and a set of non-negative coordinates. -/
def ConeOf (M : Fin R → Fin L → ℤ) (rs : Fin L → Bool) : Set (Fin L → ℝ) :=
  {x | (∀ i, ∑ j, (M i j : ℝ) * x j = 0) ∧ ∀ j, rs j = true → 0 ≤ x j}

/-- **Specification.** The largest linear subspace of a cone. -/
def Lineality (K : Set (Fin L → ℝ)) : Set (Fin L → ℝ) := {x | x ∈ K ∧ -x ∈ K}

/-- **Specification.** `e` spans an extreme ray of the cone `K`, up to the lineality space: it is not in the lineality space, and if it is a sum of two vectors
of the cone, the first one is a multiple of it. -/
def IsExtremeRay (K : Set (Fin L → ℝ)) (e : Fin L → ℝ) : Prop :=
  e ∈ K ∧ -e ∉ K ∧ ∀ u ∈ K, ∀ w ∈ K, u + w = e → ∃ c : ℝ, 0 ≤ c ∧ u - c • e ∈ Lineality K

/-- **Specification.** The results of the ray algorithm: every extreme ray once, and a basis of the lineality space. -/
structure IsRayList (K : Set (Fin L → ℝ)) (rays sub : List (Fin L → ℤ)) : Prop where
  extreme : ∀ r ∈ rays, IsExtremeRay K (toR r)
  all : ∀ e, IsExtremeRay K e → ∃ r ∈ rays, ∃ c : ℝ, 0 < c ∧ e - c • toR r ∈ Lineality K
  once : rays.Pairwise fun r r' => ∀ c : ℝ, 0 < c → toR r - c • toR r' ∉ Lineality K
  basis : ∀ x, x ∈ Lineality K ↔ x ∈ Submodule.span ℝ (Set.range fun i : Fin sub.length => toR (sub.get i))
  independent : LinearIndependent ℝ fun i : Fin sub.length => toR (sub.get i)

/-- `RayAlgorithm::compute` preceded by `lattice_basis`: `rays` and `subspace`. -/
abbrev Rays := (R L : ℕ) → (Fin R → Fin L → ℤ) → (Fin L → Bool) → List (Fin L → ℤ) × List (Fin L → ℤ)

/-- **Specification.** Contract of the ray algorithm. -/
def RaysOk (alg : Rays) : Prop := ∀ (R L : ℕ) (M : Fin R → Fin L → ℤ) (rs : Fin L → Bool), IsRayList (ConeOf M rs) (alg R L M rs).1 (alg R L M rs).2

end Verif.Ti2
