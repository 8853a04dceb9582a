import Verif.TopK.Series
import Verif.ExpSubst.Props

/-!
# Exponential substitution with exponents in any field

From an identity of indicator functions up to functions with lines to an identity of power series.
-/

namespace Verif.TopK

open PowerSeries
open Verif.ExpSubst (Lat LP mono act emb negligible)
open Verif.Barvinok (Mat Vec rel lineFn)
open Verif.Barvinok.Spec

variable {K : Type*} [Field K] [CharZero K] {n : ℕ}

/-- `x^u ↦ exp(⟨λ,u⟩ x)`. -/
noncomputable def expHomK (lam : Fin n → K) : Multiplicative (Lat n) →* K⟦X⟧ where
  toFun u := ex (∑ k, lam k * ((u.toAdd k : ℤ) : K))
  map_one' := by
    show ex (∑ k, lam k * (((0 : Lat n) k : ℤ) : K)) = 1
    simp [ex_zero]
  map_mul' u v := by
    rw [toAdd_mul, ← ex_add, ← Finset.sum_add_distrib]
    congr 1
    refine Finset.sum_congr rfl fun k _ => ?_
    rw [Pi.add_apply]
    push_cast
    ring

/-- The exponential substitution on Laurent polynomials. -/
noncomputable def phiK (lam : Fin n → K) : LP n →ₐ[ℚ] K⟦X⟧ :=
  AddMonoidAlgebra.lift ℚ K⟦X⟧ (Lat n) (expHomK lam)

theorem phiK_mono (lam : Fin n → K) (u : Lat n) : phiK lam (mono u) = ex (∑ k, lam k * ((u k : ℤ) : K)) := by
  unfold phiK mono
  rw [AddMonoidAlgebra.lift_single, one_smul]
  rfl

theorem substitutedK {ι : Type*} [Fintype ι] [DecidableEq ι] (lam : Fin n → K) (eps : ι → ℚ)
    (D N : ι → LP n) (s : LP n)
    (h : (∏ i, D i) * s = ∑ i, eps i • ((∏ j ∈ Finset.univ.erase i, D j) * N i)) (d : ℕ)
    (Q : ι → K⟦X⟧) (hQ : ∀ i, phiK lam (D i) * Q i = X ^ d) :
    X ^ d * phiK lam s = ∑ i, eps i • (phiK lam (N i) * Q i) := by
  have hD : ∀ i, phiK lam (D i) ≠ 0 := by
    intro i h0
    have := hQ i
    rw [h0, zero_mul] at this
    exact pow_ne_zero d X_ne_zero this.symm
  have hP : ∏ i, phiK lam (D i) ≠ 0 := Finset.prod_ne_zero_iff.mpr fun i _ => hD i
  apply mul_left_cancel₀ hP
  have h1 := congrArg (phiK lam) h
  rw [map_mul, map_prod, map_sum] at h1
  calc (∏ i, phiK lam (D i)) * (X ^ d * phiK lam s) = X ^ d * ((∏ i, phiK lam (D i)) * phiK lam s) := by
        ring
    _ = X ^ d * ∑ i, phiK lam (eps i • ((∏ j ∈ Finset.univ.erase i, D j) * N i)) := by rw [h1]
    _ = ∑ i, (∏ i, phiK lam (D i)) * (eps i • (phiK lam (N i) * Q i)) := by
        rw [Finset.mul_sum]
        refine Finset.sum_congr rfl fun i _ => ?_
        rw [map_smul, map_mul, map_prod, ← hQ i,
          ← Finset.prod_erase_mul _ _ (Finset.mem_univ i), mul_smul_comm, mul_smul_comm]
        congr 1
        ring
    _ = _ := by rw [← Finset.mul_sum]

/-- If `∑ εᵢ Kᵢ = F` up to a negligible function, the same holds for the series. -/
theorem subst_sum {ι : Type*} [Fintype ι] [DecidableEq ι] (lam : Fin n → K) (eps : ι → ℚ) (D N : ι → LP n)
    (Kf : ι → Lat n → ℚ) (hK : ∀ i, act (D i) (Kf i) = emb (N i)) (F : Lat n → ℚ) (D0 N0 : LP n) (hF : act D0 F = emb N0)
    (g : Lat n → ℚ) (hg : g ∈ negligible n) (h : ∑ i, eps i • Kf i = F + g) (d : ℕ)
    (Q : ι → K⟦X⟧) (hQ : ∀ i, phiK lam (D i) * Q i = X ^ d) (Q0 : K⟦X⟧) (hQ0 : phiK lam D0 * Q0 = X ^ d) :
    phiK lam N0 * Q0 = ∑ i, eps i • (phiK lam (N i) * Q i) := by
  have h1 := ExpSubst.cleared (ι := Option ι) (fun o => o.elim (-1) eps) (fun o => o.elim D0 D) (fun o => o.elim N0 N)
    (fun o => o.elim F Kf) (by rintro (_ | i); exacts [hF, hK i]) 0 g hg (by
      rw [Fintype.sum_option]
      show (-1 : ℚ) • F + ∑ i, eps i • Kf i = _
      rw [h]
      have : emb (0 : LP n) = 0 := map_zero (ExpSubst.embL (n := n))
      rw [this]
      funext p
      simp)
  have h2 := substitutedK lam _ _ _ _ h1 d (fun o => o.elim Q0 Q) (by rintro (_ | i); exacts [hQ0, hQ i])
  rw [Fintype.sum_option, map_zero, mul_zero] at h2
  simp only [Option.elim, neg_smul, one_smul] at h2
  rw [eq_comm, neg_add_eq_zero] at h2
  exact h2

/-! ## Unimodular cones -/

theorem mem_cone_inv (G Gi : Mat n) (h1 : G * Gi = 1) (h2 : Gi * G = 1) (y : Fin n → ℝ) :
    y ∈ cone G ↔ ∀ j, 0 ≤ ∑ k, y k * (Gi k j : ℝ) := by
  have e1 : ∀ i j, ∑ k, (G i k : ℝ) * (Gi k j : ℝ) = if i = j then 1 else 0 := by
    intro i j
    have := congrFun (congrFun h1 i) j
    rw [Matrix.mul_apply, Matrix.one_apply] at this
    exact_mod_cast this
  have e2 : ∀ i j, ∑ k, (Gi i k : ℝ) * (G k j : ℝ) = if i = j then 1 else 0 := by
    intro i j
    have := congrFun (congrFun h2 i) j
    rw [Matrix.mul_apply, Matrix.one_apply] at this
    exact_mod_cast this
  constructor
  · rintro ⟨a, ha, rfl⟩ j
    have : ∑ k, comb G a k * (Gi k j : ℝ) = a j := by
      unfold comb
      simp only [Finset.sum_mul]
      rw [Finset.sum_comm]
      simp only [mul_assoc, ← Finset.mul_sum, e1]
      simp
    rw [this]
    exact ha j
  · intro h
    refine ⟨_, h, ?_⟩
    funext k
    unfold comb
    simp only [Finset.sum_mul]
    rw [Finset.sum_comm]
    simp only [mul_assoc, ← Finset.mul_sum, e2]
    simp

/-- A unimodular cone `v + cone(G)` has the generating function `x^{z₀} / ∏ (1 - x^{gᵢ})`, where `z₀` has the coordinates of `v` rounded up. -/
theorem act_unimodular (G Gi : Mat n) (h1 : G * Gi = 1) (h2 : Gi * G = 1) (v : Fin n → ℚ) (c : Fin n → ℚ)
    (hc : ∀ k, ∑ i, c i * (G i k : ℚ) = v k) :
    act (∏ i, (1 - mono (fun k => G i k))) (fun z => ((ind (cone G) (rel z v) : ℤ) : ℚ)) = emb (mono fun k => ∑ i, ⌈c i⌉ * G i k) := by
  classical
  have e1 : ∀ i j, ∑ k, (G i k : ℚ) * (Gi k j : ℚ) = if i = j then 1 else 0 := by
    intro i j
    have := congrFun (congrFun h1 i) j
    rw [Matrix.mul_apply, Matrix.one_apply] at this
    exact_mod_cast this
  have e2 : ∀ i j, ∑ k, Gi i k * G k j = if i = j then 1 else 0 := by
    intro i j
    have := congrFun (congrFun h2 i) j
    rwa [Matrix.mul_apply, Matrix.one_apply] at this
  have e1' : ∀ i j, ∑ k, G i k * Gi k j = if i = j then 1 else 0 := by
    intro i j
    have := congrFun (congrFun h1 i) j
    rwa [Matrix.mul_apply, Matrix.one_apply] at this
  have hcoord : ∀ j, ∑ k, v k * (Gi k j : ℚ) = c j := by
    intro j
    simp only [← hc, Finset.sum_mul]
    rw [Finset.sum_comm]
    simp only [mul_assoc, ← Finset.mul_sum, e1]
    simp
  have hmem : ∀ p : Lat n, rel p v ∈ cone G ↔ ∀ j, 0 ≤ ((∑ k, p k * Gi k j : ℤ) : ℚ) - c j := by
    intro p
    rw [mem_cone_inv G Gi h1 h2]
    refine forall_congr' fun j => ?_
    have : ∑ k, rel p v k * (Gi k j : ℝ) = ((((∑ k, p k * Gi k j : ℤ) : ℚ) - c j : ℚ) : ℝ) := by
      rw [← hcoord j]
      push_cast
      rw [← Finset.sum_sub_distrib]
      refine Finset.sum_congr rfl fun k _ => ?_
      unfold rel
      ring
    rw [this]
    exact_mod_cast Iff.rfl
  funext p
  have key := ExpSubst.act_prod_cone (fun i => (fun k => G i k : Lat n)) (fun j p => ((∑ k, p k * Gi k j : ℤ) : ℚ) - c j) (fun _ => True)
    (fun _ _ => Iff.rfl) (by
      intro i j p
      have : ∑ k, (p - fun k => G i k) k * Gi k j = ∑ k, p k * Gi k j - if i = j then 1 else 0 := by
        rw [← e1' i j, ← Finset.sum_sub_distrib]
        exact Finset.sum_congr rfl fun k _ => by rw [Pi.sub_apply]; ring
      rw [this]
      push_cast
      split <;> ring)
    (fun z => ((ind (cone G) (rel z v) : ℤ) : ℚ))
    (by
      intro p hp
      simp only [ind, if_pos ((hmem p).2 hp.2)]
      norm_num)
    (by
      intro p hp
      simp only [ind]
      rw [if_neg (fun h => hp ⟨trivial, (hmem p).1 h⟩)]
      norm_num) p
  rw [ExpSubst.emb_mono]
  have hiff : (True ∧ ∀ j, 0 ≤ ((∑ k, p k * Gi k j : ℤ) : ℚ) - c j ∧ ((∑ k, p k * Gi k j : ℤ) : ℚ) - c j < 1) ↔ p = fun k => ∑ i, ⌈c i⌉ * G i k := by
    constructor
    · rintro ⟨-, h⟩
      have hz : ∀ j, ∑ k, p k * Gi k j = ⌈c j⌉ := by
        intro j
        obtain ⟨a, b⟩ := h j
        symm
        rw [Int.ceil_eq_iff]
        constructor <;> linarith
      funext k
      simp only [← hz, Finset.sum_mul]
      rw [Finset.sum_comm]
      simp only [mul_assoc, ← Finset.mul_sum, e2]
      simp
    · rintro rfl
      refine ⟨trivial, fun j => ?_⟩
      have : ∑ k, (∑ i, ⌈c i⌉ * G i k) * Gi k j = ⌈c j⌉ := by
        simp only [Finset.sum_mul]
        rw [Finset.sum_comm]
        simp only [mul_assoc, ← Finset.mul_sum, e1']
        simp
      rw [this]
      constructor
      · have := Int.le_ceil (c j); linarith
      · have := Int.ceil_lt_add_one (c j); linarith
  by_cases hp : p = fun k => ∑ i, ⌈c i⌉ * G i k
  · rw [if_pos hp]; exact key.1 (hiff.2 hp)
  · rw [if_neg hp]; exact key.2 fun h => hp (hiff.1 h)

/-! ## The orthant in the coordinates of a sublattice -/

/-- Lattice points `z` with `w + B z ≥ 0`, where the columns of `B` span the sublattice `Λ ∋ f eᵢ`: the generating function times `∏ (1 - x^{f B⁻¹ eᵢ})` is the sum
over the points of `w + Λ` in the box `[0,f)`. -/
theorem act_orthant (B : Mat n) (f : ℕ) (hf : 0 < f) (r : Fin n → Lat n) (hr : ∀ i, B.mulVec (r i) = Pi.single i (f : ℤ)) (w : Fin n → ℤ)
    (P : Finset (Fin n → ℤ)) (zof : (Fin n → ℤ) → Lat n) (hinj : ∀ z z', B.mulVec z = B.mulVec z' → z = z')
    (hz : ∀ y ∈ P, w + B.mulVec (zof y) = y)
    (hP : ∀ y, y ∈ P ↔ (∀ j, 0 ≤ y j ∧ y j < f) ∧ ∃ z, w + B.mulVec z = y) :
    act (∏ i, (1 - mono (r i))) (fun z => if ∀ j, 0 ≤ (w + B.mulVec z) j then (1 : ℚ) else 0) = emb (∑ y ∈ P, mono (zof y)) := by
  classical
  have hfq : (0 : ℚ) < f := by exact_mod_cast hf
  funext p
  have hnn : ∀ q : Lat n, (True ∧ ∀ j, 0 ≤ (((w + B.mulVec q) j : ℤ) : ℚ) / f) ↔ ∀ j, 0 ≤ (w + B.mulVec q) j := by
    intro q
    rw [true_and]
    refine forall_congr' fun j => ?_
    rw [le_div_iff₀ hfq, zero_mul]
    exact_mod_cast Iff.rfl
  have key := ExpSubst.act_prod_cone r (fun j p => (((w + B.mulVec p) j : ℤ) : ℚ) / f) (fun _ => True)
    (fun _ _ => Iff.rfl) (by
      intro i j p
      have : (w + B.mulVec (p - r i)) j = (w + B.mulVec p) j - if i = j then (f : ℤ) else 0 := by
        rw [Matrix.mulVec_sub, hr]
        simp only [Pi.add_apply, Pi.sub_apply, Pi.single_apply, eq_comm (a := j)]
        ring
      rw [this]
      push_cast
      split
      · field_simp
      · simp)
    (fun z => if ∀ j, 0 ≤ (w + B.mulVec z) j then (1 : ℚ) else 0)
    (fun q hq => if_pos ((hnn q).1 hq)) (fun q hq => if_neg fun h => hq ((hnn q).2 h)) p
  have hsum : emb (∑ y ∈ P, mono (zof y)) p = if w + B.mulVec p ∈ P then 1 else 0 := by
    have : emb (∑ y ∈ P, mono (zof y)) p = ∑ y ∈ P, emb (mono (zof y)) p := by
      have := map_sum (ExpSubst.embL (n := n)) (fun y => mono (zof y)) P
      have := congrFun this p
      rw [Finset.sum_apply] at this
      exact this
    rw [this]
    simp only [ExpSubst.emb_mono]
    by_cases hp : w + B.mulVec p ∈ P
    · rw [if_pos hp, Finset.sum_eq_single_of_mem _ hp]
      · rw [if_pos]
        have := hz _ hp
        exact (hinj _ _ (add_left_cancel this)).symm
      · intro y hy hne
        rw [if_neg]
        rintro rfl
        exact hne (hz y hy).symm
    · rw [if_neg hp]
      refine Finset.sum_eq_zero fun y hy => ?_
      rw [if_neg]
      rintro rfl
      exact hp (by rw [hz y hy]; exact hy)
  rw [hsum]
  have hiff : (True ∧ ∀ j, 0 ≤ (((w + B.mulVec p) j : ℤ) : ℚ) / f ∧ (((w + B.mulVec p) j : ℤ) : ℚ) / f < 1) ↔ w + B.mulVec p ∈ P := by
    rw [hP, true_and]
    constructor
    · intro h
      refine ⟨fun j => ?_, p, rfl⟩
      obtain ⟨a, b⟩ := h j
      rw [le_div_iff₀ hfq, zero_mul] at a
      rw [div_lt_iff₀ hfq, one_mul] at b
      exact ⟨by exact_mod_cast a, by exact_mod_cast b⟩
    · rintro ⟨h, -⟩ j
      obtain ⟨a, b⟩ := h j
      rw [le_div_iff₀ hfq, zero_mul, div_lt_iff₀ hfq, one_mul]
      exact ⟨by exact_mod_cast a, by exact_mod_cast b⟩
  by_cases hp : w + B.mulVec p ∈ P
  · rw [if_pos hp]; exact key.1 (hiff.2 hp)
  · rw [if_neg hp]; exact key.2 fun h => hp (hiff.1 h)

end Verif.TopK
