import Verif.TopK.Poles
import Mathlib.Algebra.Polynomial.Roots
import Mathlib.RingTheory.PowerSeries.Order

/-!
# Ehrhart quasi-polynomials of knapsacks and their top coefficients
-/

namespace Verif.TopK

open PowerSeries

/-- **Specification.** `g(t) = ∑_{j ≤ d} e_j(t) t^j` for all `t`, with periodic coefficients `e_j`. -/
structure IsQuasi {K : Type*} [Field K] (d : ℕ) (e : ℕ → ℕ → K) (g : ℕ → K) : Prop where
  periodic : ∃ q, 0 < q ∧ ∀ j t, e j (t + q) = e j t
  value : ∀ t, g t = ∑ j ∈ Finset.range (d + 1), e j t * (t : K) ^ j

theorem periodic_mul {K : Type*} {e : ℕ → ℕ → K} {q : ℕ} (h : ∀ j t, e j (t + q) = e j t) (j t k : ℕ) : e j (t + q * k) = e j t := by
  induction k with
  | zero => rfl
  | succ k ih => rw [Nat.mul_succ, ← add_assoc, h, ih]

/-- The coefficients of a quasi-polynomial are determined by its values. -/
theorem IsQuasi.unique {K : Type*} [Field K] [CharZero K] {d : ℕ} {e e' : ℕ → ℕ → K} {g : ℕ → K} (h : IsQuasi d e g) (h' : IsQuasi d e' g)
    (j : ℕ) (hj : j ≤ d) (t : ℕ) : e j t = e' j t := by
  obtain ⟨q, hq, hp⟩ := h.periodic
  obtain ⟨q', hq', hp'⟩ := h'.periodic
  let p : Polynomial K := ∑ j ∈ Finset.range (d + 1), Polynomial.monomial j (e j t - e' j t)
  have hz : ∀ k : ℕ, p.eval ((t + q * q' * k : ℕ) : K) = 0 := by
    intro k
    simp only [p, Polynomial.eval_finsetSum, Polynomial.eval_monomial]
    have h1 := h.value (t + q * q' * k)
    rw [h'.value] at h1
    have a1 : ∀ j, e j (t + q * q' * k) = e j t := fun j => by rw [mul_assoc]; exact periodic_mul hp j t (q' * k)
    have a2 : ∀ j, e' j (t + q * q' * k) = e' j t := fun j => by rw [mul_comm q, mul_assoc]; exact periodic_mul hp' j t (q * k)
    simp only [a1, a2] at h1
    simp only [sub_mul, Finset.sum_sub_distrib, h1, sub_self]
  have hp0 : p = 0 := by
    apply Polynomial.eq_zero_of_infinite_isRoot
    refine Set.Infinite.mono ?_ (Set.infinite_range_of_injective (f := fun k : ℕ => ((t + q * q' * k : ℕ) : K)) ?_)
    · rintro _ ⟨k, rfl⟩
      exact hz k
    · intro a b hab
      have h1 : t + q * q' * a = t + q * q' * b := Nat.cast_injective hab
      have h2 : q * q' * a = q * q' * b := by omega
      exact Nat.eq_of_mul_eq_mul_left (Nat.mul_pos hq hq') h2
  have hc := congrArg (fun p => Polynomial.coeff p j) hp0
  simp only [p, Polynomial.finsetSum_coeff, Polynomial.coeff_monomial, Polynomial.coeff_zero] at hc
  rw [Finset.sum_ite_eq' , if_pos (Finset.mem_range.2 (by omega))] at hc
  exact sub_eq_zero.1 hc

variable {n : ℕ}

/-- The coefficient of `t^h` of minus the residue of `exp(-t x) S / x^{n+1}`. -/
noncomputable def resCoeff {K : Type*} [Field K] (n h : ℕ) (S : K⟦X⟧) : K := -((-1) ^ h / (h.factorial : K) * coeff (n - h) S)

theorem residue_expand {K : Type*} [Field K] [CharZero K] (n : ℕ) (S : K⟦X⟧) (t : ℕ) :
    -coeff n (ex (-(t : K)) * S) = ∑ h ∈ Finset.range (n + 1), resCoeff n h S * (t : K) ^ h := by
  rw [coeff_mul, Finset.Nat.sum_antidiagonal_eq_sum_range_succ_mk, ← Finset.sum_neg_distrib]
  refine Finset.sum_congr rfl fun h _ => ?_
  simp only [resCoeff, coeff_ex]
  rw [neg_pow]
  ring

/-- The quasi-polynomial, over the complex numbers. -/
theorem ways_quasi (α : Fin (n + 1) → ℕ) (hα : ∀ i, 0 < α i) (L : ℕ) (hL : 0 < L) (hd : ∀ i, α i ∣ L) :
    IsQuasi n (fun h t => resCoeff n h (classSeries α L (t : ℤ))) (fun t => (ways α t : ℂ)) where
  periodic := by
    refine ⟨L, hL, fun j t => ?_⟩
    have : classSeries α L ((t + L : ℕ) : ℤ) = classSeries α L (t : ℤ) := by
      unfold classSeries
      refine Finset.sum_congr rfl fun z hz => ?_
      rw [show (-((t + L : ℕ) : ℤ)) = -(t : ℤ) + -(L : ℤ) by push_cast; ring, zpow_add₀ (root_ne hL hz), zpow_neg z (L : ℤ), zpow_natCast,
        (mem_roots hL z).1 hz, inv_one, mul_one]
    simp only [this]
  value t := by rw [← residues_ways α hα L hL hd t, residue_expand]

/-- The number of `αᵢ` at which `z` is not a pole bounds the order of the series from below. -/
theorem genPole_dvd (α : Fin n → ℕ) (z : ℂ) : (X : ℂ⟦X⟧) ^ (Finset.univ.filter fun i => z ^ α i ≠ 1).card ∣ genPole α z := by
  classical
  unfold genPole
  have h := Finset.prod_dvd_prod_of_dvd (s := Finset.univ) (fun i => if z ^ α i ≠ 1 then (X : ℂ⟦X⟧) else 1) (fun i => pole (z ^ α i) (α i : ℂ)) (by
    intro i _
    split
    · rename_i h; exact pole_dvd _ _ h
    · exact one_dvd _)
  rwa [Finset.prod_ite, Finset.prod_const, Finset.prod_const_one, mul_one] at h

/-- **Möbius weights.** Replace the sum over all poles by the weighted sum over the `f` in a list such that the elements divisible by `r` have total weight `1`
whenever `r` divides at least `n + 1 - k` of the `αᵢ`. The coefficients up to `x^k` do not change. -/
theorem weighted (α : Fin (n + 1) → ℕ) (k : ℕ) (hk : k ≤ n) (L : ℕ) (hL : 0 < L) (l : List (ℕ × ℤ)) (hl : ∀ p ∈ l, 0 < p.1 ∧ p.1 ∣ L)
    (hw : ∀ r : ℕ, n + 1 - k ≤ (Finset.univ.filter fun i => r ∣ α i).card → ((l.filter fun p => r ∣ p.1).map fun p => p.2).sum = 1)
    (t : ℤ) (d : ℕ) (hdk : d ≤ k) :
    coeff d (classSeries α L t) = (l.map fun p => (p.2 : ℂ) * coeff d (classSeries α p.1 t)).sum := by
  classical
  have h1 : ∀ p ∈ l, (p.2 : ℂ) * coeff d (classSeries α p.1 t) =
      ∑ z ∈ roots L, (if orderOf z ∣ p.1 then (p.2 : ℂ) else 0) * (z ^ (-t) * coeff d (genPole α z)) := by
    intro p hp
    obtain ⟨hp0, hpL⟩ := hl p hp
    unfold classSeries
    rw [map_sum, Finset.mul_sum]
    simp only [coeff_C_mul]
    have hsub : roots p.1 ⊆ roots L := by
      intro z hz
      rw [mem_roots hp0] at hz
      rw [mem_roots hL]
      obtain ⟨c, rfl⟩ := hpL
      rw [pow_mul, hz, one_pow]
    rw [← Finset.sum_subset hsub]
    · refine Finset.sum_congr rfl fun z hz => ?_
      rw [if_pos (orderOf_dvd_of_pow_eq_one ((mem_roots hp0 z).1 hz))]
    · intro z _ hz
      rw [if_neg, zero_mul]
      intro h
      exact hz ((mem_roots hp0 z).2 (orderOf_dvd_iff_pow_eq_one.1 h))
  rw [List.map_congr_left h1]
  have h2 : ∀ (l : List (ℕ × ℤ)), (l.map fun p => ∑ z ∈ roots L, (if orderOf z ∣ p.1 then (p.2 : ℂ) else 0) * (z ^ (-t) * coeff d (genPole α z))).sum =
      ∑ z ∈ roots L, (((l.filter fun p => orderOf z ∣ p.1).map fun p => p.2).sum : ℂ) * (z ^ (-t) * coeff d (genPole α z)) := by
    intro l
    induction l with
    | nil => simp
    | cons p l ih =>
      rw [List.map_cons, List.sum_cons, ih, ← Finset.sum_add_distrib]
      refine Finset.sum_congr rfl fun z _ => ?_
      by_cases h : orderOf z ∣ p.1
      · rw [if_pos h, List.filter_cons_of_pos (by simpa using h)]
        simp only [List.map_cons, List.sum_cons]
        push_cast
        ring
      · rw [if_neg h, List.filter_cons_of_neg (by simpa using h), zero_mul, zero_add]
  rw [h2]
  unfold classSeries
  rw [map_sum]
  refine Finset.sum_congr rfl fun z _ => ?_
  rw [coeff_C_mul]
  by_cases h : n + 1 - k ≤ (Finset.univ.filter fun i => orderOf z ∣ α i).card
  · have := hw _ h
    have h3 := congrArg (fun x : ℤ => (x : ℂ)) this
    beta_reduce at h3
    rw [Int.cast_list_sum, List.map_map] at h3
    change (List.map (fun p : ℕ × ℤ => (p.2 : ℂ)) _).sum = _ at h3
    rw [h3, Int.cast_one, one_mul]
  · have h0 : coeff d (genPole α z) = 0 := by
      have hdvd := genPole_dvd α z
      rw [X_pow_dvd_iff] at hdvd
      apply hdvd
      have hcard := Finset.card_filter_add_card_filter_not (s := Finset.univ) (fun i => orderOf z ∣ α i)
      rw [Finset.card_univ, Fintype.card_fin] at hcard
      have he : (Finset.univ.filter fun i => z ^ α i ≠ 1) = Finset.univ.filter fun i => ¬ orderOf z ∣ α i := by
        ext i; simp [orderOf_dvd_iff_pow_eq_one]
      rw [he]
      omega
    rw [h0, mul_zero, mul_zero]

end Verif.TopK
