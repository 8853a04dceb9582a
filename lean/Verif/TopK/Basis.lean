import Verif.TopK.Model
import Verif.Preprocess.Hermite
import Mathlib.Tactic.LinearCombination

/-!
# The lattice basis and the vertex of one `f`
-/

namespace Verif.TopK

open Verif.Barvinok (Mat)
open Verif.Preprocess (HState HermiteSpec ihermite_spec)

variable {m : ℕ}

/-- The column form of `ihermite` for one column: `U a = (g, 0, …, 0)` with `g > 0` and `U` unimodular. -/
theorem hermite_column {n : ℕ} {a : Fin (n + 1) → ℤ} (ha : ∃ i, a i ≠ 0) {r : Fin 1 → ℤ} {s : HState (n + 1) 1}
    (h : HermiteSpec (fun i (_ : Fin 1) => a i) r s) :
    (∀ i, ∑ k, s.U i k * a k = if i = 0 then s.S 0 0 else 0) ∧ 0 < s.S 0 0 := by
  obtain ⟨σ, hσ, -⟩ := h.product
  have hS : ∀ i, s.S i 0 = ∑ k, s.U i k * a k := fun i => hσ i 0
  have hcrk : s.crk = 1 := by
    rcases Nat.lt_or_ge 0 s.crk with h0 | h0
    · have := h.hm; omega
    · exfalso
      have hz : s.U.mulVec a = 0 := by
        funext i
        show ∑ k, s.U i k * a k = 0
        rw [← hS]
        exact h.rest i 0 (by omega)
      obtain ⟨i, hi⟩ := ha
      apply hi
      have h1 := congrArg (s.U⁻¹).mulVec hz
      rw [Matrix.mulVec_mulVec, Matrix.nonsing_inv_mul _ h.unimodular, Matrix.one_mulVec, Matrix.mulVec_zero] at h1
      rw [h1]; rfl
  refine ⟨fun i => ?_, h.diag 0 0 rfl (by rw [hcrk]; decide)⟩
  rw [← hS]
  by_cases hi : i = 0
  · rw [if_pos hi, hi]
  · rw [if_neg hi]
    exact h.below i 0 (by show 0 < i.val; exact Nat.pos_of_ne_zero fun h0 => hi (Fin.ext h0)) (by rw [hcrk]; decide)

/-- `U` invertible gives every integral vector as a combination of its rows. -/
theorem exists_rows {n : ℕ} (U : Mat n) (hU : IsUnit U.det) (w : Fin n → ℤ) : ∃ y : Fin n → ℤ, ∀ k, ∑ i, y i * U i k = w k := by
  refine ⟨Matrix.vecMul w U⁻¹, fun k => ?_⟩
  have h1 : Matrix.vecMul (Matrix.vecMul w U⁻¹) U = w := by
    rw [Matrix.vecMul_vecMul, Matrix.nonsing_inv_mul _ hU, Matrix.vecMul_one]
  exact congrFun h1 k

/-- **The lattice basis.** The columns form a basis of the lattice of the `w` with `f ∣ a · w`. -/
theorem findLatticeBasis_spec (fuel : ℕ) (a : Fin (m + 1) → ℤ) (ha : ∃ i, a i ≠ 0) (f : ℤ) (hf : 0 < f) (B : Mat (m + 1))
    (h : findLatticeBasis fuel a f = some B) :
    B.det ≠ 0 ∧ ∀ w : Fin (m + 1) → ℤ, f ∣ ∑ i, a i * w i ↔ ∃ z, B.mulVec z = w := by
  unfold findLatticeBasis at h
  obtain ⟨s, hs, hB⟩ := Option.map_eq_some_iff.1 h
  have hspec := ihermite_spec hs
  obtain ⟨hrow, hg⟩ := hermite_column ha hspec
  set g := s.S 0 0 with hgdef
  set q : ℤ := f / (Int.gcd f g : ℤ) with hq
  have hgcd : (Int.gcd f g : ℤ) ∣ f := Int.gcd_dvd_left ..
  have hq0 : 0 < q := Int.ediv_pos_of_pos_of_dvd hf (by positivity) hgcd
  have hmul : ∀ (z : Fin (m + 1) → ℤ) (k), B.mulVec z k = ∑ i, (if i = 0 then q * z i else z i) * s.U i k := by
    intro z k
    show ∑ j, B k j * z j = _
    refine Finset.sum_congr rfl fun j _ => ?_
    rw [← hB]
    beta_reduce
    split
    · ring
    · ring
  have hdot : ∀ (y : Fin (m + 1) → ℤ), ∑ k, a k * ∑ i, y i * s.U i k = y 0 * g := by
    intro y
    have : ∀ k, a k * ∑ i, y i * s.U i k = ∑ i, y i * (s.U i k * a k) := by
      intro k
      rw [Finset.mul_sum]
      exact Finset.sum_congr rfl fun i _ => by ring
    rw [Finset.sum_congr rfl fun k _ => this k, Finset.sum_comm]
    simp only [← Finset.mul_sum, hrow]
    simp
  have hU := hspec.unimodular
  have hdvd : ∀ y0 : ℤ, f ∣ y0 * g ↔ q ∣ y0 := by
    intro y0
    have hgp : (0 : ℤ) < Int.gcd f g := by
      have := Int.gcd_pos_of_ne_zero_left g hf.ne'
      exact_mod_cast this
    obtain ⟨g', hg'⟩ : (Int.gcd f g : ℤ) ∣ g := Int.gcd_dvd_right ..
    have hf' : f = (Int.gcd f g : ℤ) * q := (Int.mul_ediv_cancel' hgcd).symm
    have hcop : IsCoprime q g' := by
      rw [Int.isCoprime_iff_gcd_eq_one]
      have h1 := Int.gcd_ediv_gcd_ediv_gcd (i := f) (j := g) (by exact_mod_cast hgp)
      have h2 : g / (Int.gcd f g : ℤ) = g' := Int.ediv_eq_of_eq_mul_right hgp.ne' hg'
      rw [h2] at h1
      exact h1
    generalize hG : (Int.gcd f g : ℤ) = G at hgp hg' hf'
    constructor
    · rintro ⟨c, hc⟩
      have h1 : q ∣ y0 * g' := ⟨c, mul_left_cancel₀ hgp.ne' (by linear_combination hc - y0 * hg' + c * hf')⟩
      exact hcop.dvd_of_dvd_mul_right h1
    · rintro ⟨c, rfl⟩
      refine ⟨c * g', ?_⟩
      linear_combination q * c * hg' - c * g' * hf'
  constructor
  · have hdet : B = s.U.transpose * Matrix.diagonal fun j => if j = 0 then q else 1 := by
      ext i j
      rw [← hB, Matrix.mul_diagonal, Matrix.transpose_apply]
      split <;> simp_all
    rw [hdet, Matrix.det_mul, Matrix.det_transpose, Matrix.det_diagonal]
    refine mul_ne_zero hU.ne_zero (Finset.prod_ne_zero_iff.2 fun j _ => ?_)
    split
    · exact hq0.ne'
    · exact one_ne_zero
  · intro w
    constructor
    · intro hd
      obtain ⟨y, hy⟩ := exists_rows s.U hU w
      have h1 : f ∣ y 0 * g := by
        rw [← hdot y]
        simpa only [hy] using hd
      obtain ⟨c, hc⟩ := (hdvd _).1 h1
      refine ⟨fun i => if i = 0 then c else y i, ?_⟩
      funext k
      rw [hmul, ← hy k]
      refine Finset.sum_congr rfl fun i _ => ?_
      by_cases hi : i = 0
      · subst hi; simp [hc]
      · simp [hi]
    · rintro ⟨z, rfl⟩
      simp only [hmul]
      rw [hdot, if_pos rfl, hdvd]
      exact dvd_mul_right _ _

/-- **The vertex.** `a · s ≡ 1` modulo `f`, if the `aᵢ` and `f` have no common divisor. -/
theorem findVertex_spec (fuel : ℕ) (a : Fin (m + 1) → ℤ) (f : ℤ) (hf : 0 < f) (hg : ∀ d : ℤ, d ∣ f → (∀ i, d ∣ a i) → IsUnit d)
    (s : Fin (m + 1) → ℤ) (h : findVertex fuel a f = some s) : f ∣ (∑ i, a i * s i) - 1 := by
  unfold findVertex at h
  obtain ⟨r, hr, hs⟩ := Option.map_eq_some_iff.1 h
  have hspec := ihermite_spec hr
  have hne : ∃ i, (Fin.snoc (α := fun _ => ℤ) a f : Fin (m + 1 + 1) → ℤ) i ≠ 0 := ⟨Fin.last _, by rw [Fin.snoc_last]; exact hf.ne'⟩
  obtain ⟨hrow, hpos⟩ := hermite_column hne hspec
  set g := r.S 0 0
  have hall : ∀ k, g ∣ (Fin.snoc (α := fun _ => ℤ) a f : Fin (m + 1 + 1) → ℤ) k := by
    intro k
    have hU := hspec.unimodular
    have h1 : r.U.mulVec (Fin.snoc (α := fun _ => ℤ) a f) = fun i => if i = 0 then g else 0 := funext hrow
    have h2 := congrArg (r.U⁻¹).mulVec h1
    rw [Matrix.mulVec_mulVec, Matrix.nonsing_inv_mul _ hU, Matrix.one_mulVec] at h2
    rw [h2]
    show g ∣ ∑ i, r.U⁻¹ k i * (if i = 0 then g else 0)
    refine Finset.dvd_sum fun i _ => ?_
    split
    · exact dvd_mul_left _ _
    · simp
  have hunit : IsUnit g := hg g (by have := hall (Fin.last _); rwa [Fin.snoc_last] at this) fun i => by
    have := hall i.castSucc; rwa [Fin.snoc_castSucc] at this
  have hone : g = 1 := by rcases Int.isUnit_iff.1 hunit with h | h <;> omega
  have h0 := hrow 0
  rw [if_pos rfl, hone, Fin.sum_univ_castSucc] at h0
  simp only [Fin.snoc_castSucc, Fin.snoc_last] at h0
  refine ⟨-r.U 0 (Fin.last _), ?_⟩
  rw [← hs]
  have : ∑ i, a i * r.U 0 (Fin.castSucc i) = ∑ i, r.U 0 (Fin.castSucc i) * a i := Finset.sum_congr rfl fun i _ => mul_comm _ _
  rw [this]
  linarith

end Verif.TopK
