import Verif.Preprocess.Main
import Verif.Brion.Total

/-!
# C67 and C65: the count of a polytope given with equations
-/

namespace Verif.Preprocess

open Verif.Barvinok Verif.Barvinok.Spec Verif.ExpSubst Verif.Irrational Verif.Brion

variable {n k m d : ℕ}

/-- **Specification.** The rows `b + a · x ≥ 0` written as `-a · x ≤ b`. -/
def rowNormals (out : List (Row d)) : Fin out.length → Vec d := fun i k => -(out.get i).a k
def rowBounds (out : List (Row d)) : Fin out.length → ℚ := fun i => (out.get i).b

theorem latticePoints_feasible {out : List (Row d)} {S : List (Vec d)} (h : LatticePoints (rowNormals out) (rowBounds out) S) (z : Fin d → ℤ) :
    z ∈ S ↔ z ∈ feasible out := by
  rw [h.mem]
  have key : ∀ i : Fin out.length, (∑ k, ((rowNormals out i k : ℤ) : ℚ) * (z k : ℚ) ≤ rowBounds out i) ↔ 0 ≤ (out.get i).eval 1 z := by
    intro i
    have e : ∑ k, ((rowNormals out i k : ℤ) : ℚ) * (z k : ℚ) = ((-∑ k, (out.get i).a k * z k : ℤ) : ℚ) := by
      push_cast
      rw [← Finset.sum_neg_distrib]
      exact Finset.sum_congr rfl fun k _ => by simp [rowNormals]
    rw [e, rowBounds, Int.cast_le, Row.eval]
    constructor <;> intro h <;> linarith
  constructor
  · intro hz r hr
    obtain ⟨i, hi⟩ := List.get_of_mem hr
    rw [← hi]
    exact (key i).1 (hz i)
  · intro hz i
    exact (key i).2 (hz _ (List.get_mem out i))

/-- **C67, counting.** The number of integer points of the eliminated system is that of the original polyhedron. -/
theorem c67_ncard {fuel : ℕ} {eqs : Fin m → Row n} {ineqs : List (Row n)} {cost : Fin n → ℤ} {dil : ℤ} (hi : ineqs ≠ []) (hmn : m ≤ n)
    (hs : IntSolvable eqs ∨ Independent eqs) {d : ℕ} {out : List (Row d)} {p : Fin n → ℤ} {B : Fin d → Fin n → ℤ} {newCost : Fin d → ℤ}
    (hrun : preprocessProblem fuel eqs ineqs cost dil = .reduced d out p B newCost) :
    (feasible out).ncard = (solutions eqs ineqs dil).ncard := by
  have := (c67_lattice_points hi hmn hs hrun).1
  rw [← this.image_eq, this.injOn.ncard_image]

theorem length_ncard {out : List (Row d)} {S : List (Vec d)} (h : LatticePoints (rowNormals out) (rowBounds out) S) :
    (feasible out).ncard = S.length := by
  have : feasible out = {z | z ∈ S} := by
    ext z
    exact (latticePoints_feasible h z).symm
  classical
  rw [this, show {z | z ∈ S} = (S.toFinset : Set (Vec d)) by ext z; simp, Set.ncard_coe_finset, List.toFinset_card_of_nodup h.nodup]

/-- **C67 with C65.** A polytope given by equations and inequalities: the elimination followed by the decomposition and the exponential count gives the number
of integer points of the (dilated) polytope in the original coordinates. -/
theorem c67_total_count {hfuel : ℕ} {eqs : Fin m → Row n} {ineqs : List (Row n)} {cost : Fin n → ℤ} {dil : ℤ} (hi : ineqs ≠ []) (hmn : m ≤ n)
    (hs : IntSolvable eqs ∨ Independent eqs) {out : List (Row (k + 1))} {p : Fin n → ℤ} {B : Fin (k + 1) → Fin n → ℤ} {newCost : Fin (k + 1) → ℤ}
    (hrun : preprocessProblem hfuel eqs ineqs cost dil = .reduced (k + 1) out p B newCost)
    (N' : Ntl (k + 1)) (hN : N'.Ok) (hsv : ShortVectors N') (X : Smith.Xgcd) (irr : Cone (k + 1) → Fin (k + 1) → ℚ)
    (maxDet : ℤ) (h1 : 1 ≤ maxDet) (hmax : maxDet ≤ Piped.intMax) (fuel : ℕ) (hf : maxDet < fuel)
    (S : List (Vec (k + 1))) (hS : LatticePoints (rowNormals out) (rowBounds out) S)
    (cones : List ((Fin (k + 1) → ℚ) × List (Mat (k + 1)))) (hvs : IsVertexList (rowNormals out) (rowBounds out) (cones.map (·.1)))
    (hT : ∀ c ∈ cones, Triangulation c.2 (normal (rowNormals out) (rowBounds out) c.1)) :
    ∃ D : List (Cone (k + 1)), (∃ lam, GenericFor lam D) ∧ ∀ (t : ℕ) (guesses : ℕ → Vec (k + 1)),
      (∀ s < t, ¬ GenericFor (guesses s) D) → GenericFor (guesses t) D → ∀ tries, t < tries →
      decomposeAndCount N' X .dual irr maxDet fuel cones tries guesses = .ok ((solutions eqs ineqs dil).ncard : ℤ) := by
  have h := c65_total_dual N' hN hsv X irr maxDet h1 hmax fuel hf (rowNormals out) (rowBounds out) S hS cones hvs hT
  rw [← length_ncard hS, c67_ncard hi hmn hs hrun] at h
  exact h

end Verif.Preprocess
