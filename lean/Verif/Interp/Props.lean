import Verif.Interp.Lemmas
import Mathlib.LinearAlgebra.Vandermonde
import Mathlib.Algebra.Polynomial.BigOperators
import Mathlib.Algebra.Polynomial.Roots
import Mathlib.Tactic.NormNum

/-! C10: polynomial interpolation. -/

namespace Latte.Interp
open Finset

/-- specification: the value at `x` of the polynomial with coefficient list `c` (constant term first) -/
def polyVal (c : List ℚ) (x : ℚ) : ℚ := ∑ i ∈ range c.length, c.getD i 0 * x ^ i

/-- **C10** The evaluation routine computes the value of the polynomial. -/
theorem c10_evaluate (c : List ℚ) (hc : c ≠ []) (x : ℚ) : evaluatePoly x c = polyVal c x := by
  unfold evaluatePoly polyVal
  obtain ⟨m, hm⟩ : ∃ m, c.length = m + 1 := by
    cases c with
    | nil => exact absurd rfl hc
    | cons a l => exact ⟨l.length, rfl⟩
  rw [evalLoop_eq, hm, sum_range_succ']
  simp

theorem interp_start (d : Nat) (pts : List (ℚ × ℚ)) (hl : pts.length ≤ d + 1) :
    ∃ s, addAll (create d) pts = .ok s ∧ s.n = d + 1 ∧
      (∀ i j, pts.length ≤ i → s.mat i j = 0) ∧
      (∀ k (hk : k < pts.length), (∀ j < d + 1, s.mat k j = pts[k].1 ^ j) ∧ s.mat k (d + 1) = pts[k].2) := by
  obtain ⟨h1, _⟩ := addAll_spec (create d) pts
  obtain ⟨s, e, hn, _, hge, hk⟩ := h1 (by simp [create]; omega)
  refine ⟨s, e, hn, ?_, ?_⟩
  · intro i j hi
    rw [hge i j (by simpa [create] using hi)]; rfl
  · intro k hkl
    have := hk k hkl
    simpa [create] using this

/-- **C10** Feeding `d+1` points with pairwise distinct abscissae and solving returns `d+1` coefficients of a
polynomial through all the points, and these are the coefficients of *every* polynomial of degree ≤ `d` through the
points. -/
theorem c10_interpolation_exact (d : Nat) (pts : List (ℚ × ℚ)) (hl : pts.length = d + 1)
    (hd : (pts.map Prod.fst).Nodup) :
    ∃ c, interpolate d pts = .ok c ∧ c.length = d + 1 ∧ (∀ p ∈ pts, polyVal c p.1 = p.2) ∧
      ∀ c' : List ℚ, c'.length = d + 1 → (∀ p ∈ pts, polyVal c' p.1 = p.2) → c' = c := by
  obtain ⟨s, e, hn, _, hk⟩ := interp_start d pts hl.le
  have hinj : Function.Injective (fun i : Fin (d + 1) => (pts[i.1]'(by omega)).1) := by
    intro a b hab
    have h1 : a.1 < (pts.map Prod.fst).length := by simp; omega
    have h2 : b.1 < (pts.map Prod.fst).length := by simp; omega
    have := (List.Nodup.getElem_inj_iff hd (hi := h1) (hj := h2)).1 (by simpa using hab)
    exact Fin.ext this
  have hker : ∀ v : Nat → ℚ, Sol (d + 1) s.mat v 0 → ∀ j < d + 1, v j = 0 := by
    intro v hv j hj
    have := Matrix.eq_zero_of_forall_index_sum_pow_mul_eq_zero (v := fun i : Fin (d + 1) => v i) hinj (by
      intro i
      have h1 := hv i.1 i.2
      rw [zero_mul, ← Fin.sum_univ_eq_sum_range (fun j => s.mat i j * v j)] at h1
      rw [← h1]
      apply sum_congr rfl
      intro j _
      rw [(hk i.1 (by omega)).1 j.1 j.2])
    exact congrFun this ⟨j, hj⟩
  unfold interpolate
  rw [e]
  simp only
  unfold solve
  rw [hn]
  rcases ge_spec (d + 1) (d + 1) 0 (by omega) s.mat (by intro i _ j hj; omega) with ⟨_, v, ⟨j, hj, hvj⟩, hs⟩ | ⟨M', eM, hid, hs⟩
  · exact absurd (hker v hs j hj) hvj
  · rw [eM]
    simp only [isSingular_false hid, Bool.false_eq_true, if_false]
    refine ⟨_, rfl, by simp, ?_, ?_⟩
    · intro p hp
      obtain ⟨i, hi, rfl⟩ := List.getElem_of_mem hp
      have hsol : Sol (d + 1) s.mat (fun i => M' i (d + 1)) 1 := by
        rw [hs, sol_id hid]; intro i _; ring
      have h1 := hsol i (by omega)
      rw [one_mul, (hk i hi).2] at h1
      rw [← h1]
      unfold polyVal
      simp only [List.length_map, List.length_range]
      apply sum_congr rfl
      intro j hj
      have hj' := mem_range.1 hj
      rw [(hk i hi).1 j hj']
      simp [List.getD, hj', mul_comm]
    · intro c' hl' hc'
      have hsol : Sol (d + 1) s.mat (fun i => c'.getD i 0) 1 := by
        intro i hi
        have hi' : i < pts.length := by omega
        rw [one_mul, (hk i hi').2, ← hc' _ (List.getElem_mem hi')]
        unfold polyVal
        rw [hl']
        apply sum_congr rfl
        intro j hj
        rw [(hk i hi').1 j (mem_range.1 hj)]; ring
      rw [hs, sol_id hid] at hsol
      apply List.ext_getElem
      · simp [hl']
      · intro i h1 h2
        have := hsol i (by omega)
        simp only [one_mul] at this
        simp only [List.getElem_map, List.getElem_range]
        rw [← this]
        simp [List.getD, List.getElem?_eq_getElem h1]

/-- **C10** (partial: the code violates the last clause of the property.) When the points do not determine the
polynomial — fewer than `d+1` of them, or a repeated abscissa — the solver never gets as far as returning
coefficients, but its check for a column of zeros (`currentRow > rowSize`) misses the case and a row outside the matrix
is used (undefined behaviour). With more than `d+1` points it exits. -/
theorem c10_degenerate_points_partial (d : Nat) (pts : List (ℚ × ℚ)) :
    (pts.length ≤ d + 1 → ¬ (pts.length = d + 1 ∧ (pts.map Prod.fst).Nodup) →
      interpolate d pts = .error .outOfBounds) ∧
    (d + 1 < pts.length → interpolate d pts = .error .exit) := by
  constructor
  swap
  · intro h
    have := (addAll_spec (create d) pts).2 (by simpa [create] using h) (by simp [create])
    unfold interpolate
    rw [this]
  intro hl hdeg
  obtain ⟨s, e, hn, hz, hk⟩ := interp_start d pts hl
  unfold interpolate
  rw [e]
  simp only
  unfold solve
  rw [hn]
  rcases ge_spec (d + 1) (d + 1) 0 (by omega) s.mat (by intro i _ j hj; omega) with ⟨eM, _⟩ | ⟨M', eM, hid, hs⟩
  · rw [eM]
  · exfalso
    -- a non-zero polynomial of degree ≤ d vanishing at all abscissae
    set S : Finset ℚ := (pts.map Prod.fst).toFinset with hS
    have hcard : S.card < d + 1 := by
      by_contra hge
      apply hdeg
      have h1 : S.card ≤ (pts.map Prod.fst).length := List.toFinset_card_le _
      have h2 : (pts.map Prod.fst).length = pts.length := by simp
      refine ⟨by omega, ?_⟩
      have h3 : (pts.map Prod.fst).toFinset.card = (pts.map Prod.fst).length := by rw [← hS]; omega
      exact Multiset.coe_nodup.1 (Multiset.toFinset_card_eq_card_iff_nodup.1 h3)
    set P : Polynomial ℚ := ∏ a ∈ S, (Polynomial.X - Polynomial.C a) with hP
    have hmon : P.Monic := Polynomial.monic_prod_of_monic _ _ (fun a _ => Polynomial.monic_X_sub_C a)
    have hdegP : P.natDegree < d + 1 := by
      rw [hP, Polynomial.natDegree_prod_of_monic _ _ (fun a _ => Polynomial.monic_X_sub_C a)]
      simpa using hcard
    have hroot : ∀ p ∈ pts, P.eval p.1 = 0 := by
      intro p hp
      rw [hP, Polynomial.eval_prod]
      apply prod_eq_zero (i := p.1)
      · rw [hS, List.mem_toFinset]; exact List.mem_map_of_mem hp
      · simp
    have hsol : Sol (d + 1) s.mat (fun i => P.coeff i) 0 := by
      intro i hi
      rw [zero_mul]
      by_cases hip : i < pts.length
      · have := hroot _ (List.getElem_mem hip)
        rw [Polynomial.eval_eq_sum_range' hdegP] at this
        rw [← this]
        apply sum_congr rfl
        intro j hj
        rw [(hk i hip).1 j (mem_range.1 hj)]; ring
      · apply sum_eq_zero
        intro j _
        rw [hz i j (by omega)]; ring
    rw [hs, sol_id hid] at hsol
    have := hsol P.natDegree hdegP
    rw [zero_mul, Polynomial.coeff_natDegree, hmon.leadingCoeff] at this
    exact one_ne_zero this

/-- non-vacuity: the points (0,1), (1,3), (2,7) of 1 + x + x² -/
example : (([(0, 1), (1, 3), (2, 7)] : List (ℚ × ℚ)).map Prod.fst).Nodup ∧
    polyVal [1, 1, 1] 2 = 7 := by
  refine ⟨by decide, ?_⟩
  norm_num [polyVal, sum_range_succ]

end Latte.Interp
