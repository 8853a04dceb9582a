import Verif.TopK.Series
import Mathlib.RingTheory.PowerSeries.WellKnown
import Mathlib.Algebra.Order.Antidiag.Pi
import Mathlib.Data.Set.Card
import Mathlib.SetTheory.Cardinal.Finite
import Mathlib.Algebra.BigOperators.Ring.Finset

/-!
# The number of ways to write a number as a non-negative combination, as a power series
-/

namespace Verif.TopK

open PowerSeries

/-- **Specification.** The number of solutions `x ∈ ℕⁿ` of `α₁ x₁ + … + αₙ xₙ = t`. -/
noncomputable def ways {n : ℕ} (α : Fin n → ℕ) (t : ℕ) : ℕ := Nat.card {x : Fin n → ℕ // ∑ i, α i * x i = t}

variable {n : ℕ}

/-- The geometric series `1/(1 - z^a)`. -/
noncomputable def geo (a : ℕ) : ℚ⟦X⟧ := mk fun t => if a ∣ t then 1 else 0

theorem geo_mul (a : ℕ) (ha : 0 < a) : (1 - X ^ a) * geo a = 1 := by
  ext t
  rw [sub_mul, one_mul, map_sub, coeff_X_pow_mul', coeff_one]
  unfold geo
  rw [coeff_mk]
  by_cases h : a ≤ t
  · rw [if_pos h, coeff_mk, if_neg (show t ≠ 0 by omega)]
    have : a ∣ t ↔ a ∣ t - a := by
      obtain ⟨c, rfl⟩ := Nat.exists_eq_add_of_le h
      rw [Nat.add_sub_cancel_left]
      exact Nat.dvd_add_right (dvd_refl a)
    by_cases h2 : a ∣ t
    · rw [if_pos h2, if_pos (this.1 h2), sub_self]
    · rw [if_neg h2, if_neg (fun h3 => h2 (this.2 h3)), sub_self]
  · rw [if_neg h, sub_zero]
    by_cases h0 : t = 0
    · subst h0; simp
    · rw [if_neg h0, if_neg]
      intro hd
      exact h (Nat.le_of_dvd (Nat.pos_of_ne_zero h0) hd)

theorem ways_gf (α : Fin n → ℕ) (hα : ∀ i, 0 < α i) : (mk fun t => (ways α t : ℚ)) = ∏ i, geo (α i) := by
  classical
  ext t
  rw [coeff_mk, coeff_prod]
  simp only [geo, coeff_mk]
  have e : ∀ l ∈ Finset.finsuppAntidiag Finset.univ t, (∏ i, if α i ∣ l i then (1 : ℚ) else 0) = if ∀ i, α i ∣ l i then 1 else 0 := by
    intro l _
    by_cases h : ∀ i, α i ∣ l i
    · rw [if_pos h]; exact Finset.prod_eq_one fun i _ => if_pos (h i)
    · rw [if_neg h]
      push Not at h
      obtain ⟨i, hi⟩ := h
      exact Finset.prod_eq_zero (Finset.mem_univ i) (if_neg hi)
  rw [Finset.sum_congr rfl e, Finset.sum_boole]
  congr 1
  unfold ways
  rw [← Nat.card_eq_finsetCard]
  refine Nat.card_congr ⟨fun x => ⟨Finsupp.equivFunOnFinite.symm fun i => α i * x.1 i, ?_⟩,
    fun l => ⟨fun i => l.1 i / α i, ?_⟩, ?_, ?_⟩
  · rw [Finset.mem_filter, Finset.mem_finsuppAntidiag]
    exact ⟨⟨x.2, fun i _ => Finset.mem_univ i⟩, fun i => Dvd.intro _ rfl⟩
  · have h := l.2
    rw [Finset.mem_filter, Finset.mem_finsuppAntidiag] at h
    exact (Finset.sum_congr rfl fun i _ => Nat.mul_div_cancel' (h.2 i)).trans h.1.1
  · intro x
    apply Subtype.ext
    funext i
    exact Nat.mul_div_cancel_left _ (hα i)
  · intro l
    have h := l.2
    rw [Finset.mem_filter] at h
    apply Subtype.ext
    ext i
    exact Nat.mul_div_cancel' (h.2 i)

/-- `1/(1 - z^L)^(n+1)`. -/
noncomputable def geoPow (L n : ℕ) : ℚ⟦X⟧ := mk fun t => if L ∣ t then (((t / L + n).choose n : ℕ) : ℚ) else 0

theorem geoPow_zero (L : ℕ) : geoPow L 0 = geo L := by
  unfold geoPow geo
  simp

theorem geoPow_succ (L n : ℕ) (hL : 0 < L) : (1 - X ^ L) * geoPow L (n + 1) = geoPow L n := by
  ext t
  rw [sub_mul, one_mul, map_sub, coeff_X_pow_mul']
  unfold geoPow
  simp only [coeff_mk]
  by_cases h : L ≤ t
  · obtain ⟨c, rfl⟩ := Nat.exists_eq_add_of_le h
    rw [if_pos h, Nat.add_sub_cancel_left]
    have h2 : L ∣ L + c ↔ L ∣ c := Nat.dvd_add_right (dvd_refl L)
    by_cases h3 : L ∣ c
    · rw [if_pos (h2.2 h3), if_pos h3, if_pos (h2.2 h3)]
      have e : (L + c) / L = c / L + 1 := by rw [Nat.add_div_left _ hL]
      rw [e, show c / L + 1 + (n + 1) = (c / L + 1 + n).succ by omega, Nat.choose_succ_succ, show c / L + (n + 1) = c / L + 1 + n by omega]
      push_cast; ring
    · rw [if_neg (fun h4 => h3 (h2.1 h4)), if_neg h3, if_neg (fun h4 => h3 (h2.1 h4)), sub_zero]
  · rw [if_neg h, sub_zero]
    by_cases h3 : L ∣ t
    · have : t = 0 := by
        by_contra h0
        exact h (Nat.le_of_dvd (Nat.pos_of_ne_zero h0) h3)
      subst this
      simp
    · rw [if_neg h3, if_neg h3]

theorem geoPow_mul (L n : ℕ) (hL : 0 < L) : (1 - X ^ L) ^ (n + 1) * geoPow L n = 1 := by
  induction n with
  | zero => rw [geoPow_zero, zero_add, pow_one, geo_mul L hL]
  | succ n ih => rw [pow_succ, mul_assoc, geoPow_succ L n hL, ih]

/-- The number of solutions in terms of a common multiple of the coefficients. -/
theorem ways_box (α : Fin (n + 1) → ℕ) (hα : ∀ i, 0 < α i) (L : ℕ) (hL : 0 < L) (hd : ∀ i, α i ∣ L) (t : ℕ) :
    (ways α t : ℚ) = ∑ y ∈ Fintype.piFinset fun i => Finset.range (L / α i),
      if ∑ i, α i * y i ≤ t ∧ L ∣ t - ∑ i, α i * y i then ((((t - ∑ i, α i * y i) / L + n).choose n : ℕ) : ℚ) else 0 := by
  have h1 : ((1 : ℚ⟦X⟧) - X ^ L) ^ (n + 1) * ∏ i, geo (α i) = ∑ y ∈ Fintype.piFinset fun i => Finset.range (L / α i), X ^ (∑ i, α i * y i) := by
    have h2 : ∀ i, ((1 : ℚ⟦X⟧) - X ^ L) * geo (α i) = ∑ y ∈ Finset.range (L / α i), X ^ (α i * y) := by
      intro i
      have h3 := mul_neg_geom_sum ((X : ℚ⟦X⟧) ^ α i) (L / α i)
      rw [← pow_mul, Nat.mul_div_cancel' (hd i)] at h3
      rw [← h3]
      simp only [← pow_mul]
      linear_combination (∑ y ∈ Finset.range (L / α i), (X : ℚ⟦X⟧) ^ (α i * y)) * geo_mul (α i) (hα i)
    have h4 : ((1 : ℚ⟦X⟧) - X ^ L) ^ (n + 1) = ∏ _i : Fin (n + 1), (1 - X ^ L) := by simp
    rw [h4, ← Finset.prod_mul_distrib, Finset.prod_congr rfl fun i _ => h2 i, Finset.prod_univ_sum]
    exact Finset.sum_congr rfl fun y _ => (Finset.prod_pow_eq_pow_sum _ _ _)
  have h5 : (mk fun t => (ways α t : ℚ)) = geoPow L n * ∑ y ∈ Fintype.piFinset fun i => Finset.range (L / α i), X ^ (∑ i, α i * y i) := by
    rw [ways_gf α hα, ← h1]
    linear_combination -(∏ i, geo (α i)) * geoPow_mul L n hL
  have h6 := congrArg (coeff t) h5
  rw [coeff_mk, Finset.mul_sum, map_sum] at h6
  rw [h6]
  refine Finset.sum_congr rfl fun y _ => ?_
  rw [coeff_mul_X_pow']
  unfold geoPow
  by_cases h : ∑ i, α i * y i ≤ t
  · rw [if_pos h, coeff_mk]
    by_cases h7 : L ∣ t - ∑ i, α i * y i
    · rw [if_pos h7, if_pos ⟨h, h7⟩]
    · rw [if_neg h7, if_neg fun h8 => h7 h8.2]
  · rw [if_neg h, if_neg fun h8 => h h8.1]

end Verif.TopK
