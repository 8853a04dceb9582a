import Verif.TopK.Ways
import Mathlib.RingTheory.RootsOfUnity.Complex
import Mathlib.Algebra.Ring.GeomSum

/-!
# Poles of the generating function and the number of solutions

The residues of `z^{-t-1} / ∏ (1 - z^{αᵢ})` at the roots of unity, in the coordinate `z = ζ exp x`.
-/

namespace Verif.TopK

open PowerSeries

/-- The complex `f`-th roots of unity. -/
noncomputable def roots (f : ℕ) : Finset ℂ := Polynomial.nthRootsFinset f (1 : ℂ)

theorem mem_roots {f : ℕ} (hf : 0 < f) (z : ℂ) : z ∈ roots f ↔ z ^ f = 1 := Polynomial.mem_nthRootsFinset hf 1

theorem root_ne {f : ℕ} (hf : 0 < f) {z : ℂ} (hz : z ∈ roots f) : z ≠ 0 := by
  rintro rfl
  have := (mem_roots hf 0).1 hz
  rw [zero_pow hf.ne'] at this
  exact zero_ne_one this

/-- Orthogonality. -/
theorem sum_roots {f : ℕ} (hf : 0 < f) (m : ℤ) : ∑ z ∈ roots f, z ^ m = if (f : ℤ) ∣ m then (f : ℂ) else 0 := by
  have hprim := Complex.isPrimitiveRoot_exp f hf.ne'
  set η := Complex.exp (2 * Real.pi * Complex.I / f) with hη
  by_cases h : (f : ℤ) ∣ m
  · rw [if_pos h]
    obtain ⟨c, rfl⟩ := h
    have h1 : ∀ z ∈ roots f, z ^ ((f : ℤ) * c) = (1 : ℂ) := fun z hz => by
      rw [zpow_mul, zpow_natCast, (mem_roots hf z).1 hz, one_zpow]
    rw [Finset.sum_congr rfl h1]
    rw [Finset.sum_const, nsmul_eq_mul, mul_one]
    congr 1
    exact hprim.card_nthRootsFinset
  · rw [if_neg h]
    have hη0 : η ≠ 0 := hprim.ne_zero hf.ne'
    have hne : η ^ m ≠ 1 := fun h1 => h ((hprim.zpow_eq_one_iff_dvd m).1 h1)
    have hbij : ∑ z ∈ roots f, z ^ m = ∑ z ∈ roots f, (η * z) ^ m := by
      symm
      refine Finset.sum_bij (fun z _ => η * z) ?_ ?_ ?_ ?_
      · intro z hz
        rw [mem_roots hf] at hz ⊢
        rw [mul_pow, hz, hprim.pow_eq_one, one_mul]
      · intro a _ b _ hab
        exact mul_left_cancel₀ hη0 hab
      · intro b hb
        refine ⟨η⁻¹ * b, ?_, by rw [← mul_assoc, mul_inv_cancel₀ hη0, one_mul]⟩
        rw [mem_roots hf] at hb ⊢
        rw [mul_pow, hb, inv_pow, hprim.pow_eq_one, inv_one, one_mul]
      · intro a _; rfl
    simp only [mul_zpow, ← Finset.mul_sum] at hbij
    have : (η ^ m - 1) * ∑ z ∈ roots f, z ^ m = 0 := by rw [sub_mul, one_mul, ← hbij, sub_self]
    exact (mul_eq_zero.1 this).resolve_left (sub_ne_zero.2 hne)

variable {n : ℕ}

/-- `xⁿ / ∏ (1 - z^{αᵢ} exp(αᵢ x))`. -/
noncomputable def genPole (α : Fin n → ℕ) (z : ℂ) : ℂ⟦X⟧ := ∏ i, pole (z ^ α i) (α i : ℂ)

theorem genPole_clear (α : Fin n → ℕ) (hα : ∀ i, 0 < α i) (m : Fin n → ℕ) (z : ℂ) (hz : ∀ i, z ^ (α i * m i) = 1) :
    (∏ i, (1 - ex ((α i * m i : ℕ) : ℂ))) * genPole α z =
      X ^ n * ∑ y ∈ Fintype.piFinset fun i => Finset.range (m i), C (z ^ (∑ i, α i * y i)) * ex ((∑ i, α i * y i : ℕ) : ℂ) := by
  have h1 : ∀ i, (1 - ex ((α i * m i : ℕ) : ℂ)) * pole (z ^ α i) (α i : ℂ) =
      X * ∑ y ∈ Finset.range (m i), C (z ^ (α i * y)) * ex ((α i * y : ℕ) : ℂ) := by
    intro i
    have ha : (α i : ℂ) ≠ 0 := by exact_mod_cast (hα i).ne'
    have h2 := mul_neg_geom_sum (C (z ^ α i) * ex (α i : ℂ)) (m i)
    have h3 : ∀ y : ℕ, (C (z ^ α i) * ex (α i : ℂ)) ^ y = C (z ^ (α i * y)) * ex ((α i * y : ℕ) : ℂ) := by
      intro y
      rw [mul_pow, ← map_pow, ← pow_mul, ex_pow]
      push_cast
      rfl
    simp only [h3, hz, map_one, one_mul] at h2
    rw [← h2]
    linear_combination (∑ y ∈ Finset.range (m i), C (z ^ (α i * y)) * ex ((α i * y : ℕ) : ℂ)) * pole_mul (z ^ α i) (α i : ℂ) ha
  unfold genPole
  rw [← Finset.prod_mul_distrib, Finset.prod_congr rfl fun i _ => h1 i, Finset.prod_mul_distrib, Finset.prod_const, Finset.card_univ, Fintype.card_fin,
    Finset.prod_univ_sum]
  congr 1
  refine Finset.sum_congr rfl fun y _ => ?_
  rw [Finset.prod_mul_distrib, ← map_prod, Finset.prod_pow_eq_pow_sum]
  push_cast
  rw [ex_sum]

/-- `f · xⁿ · ∑ exp(x α·y)`, over the `y ∈ ℕⁿ` with `α·y ≡ t` modulo `f`, as a sum over roots of unity. -/
noncomputable def classSeries (α : Fin n → ℕ) (f : ℕ) (t : ℤ) : ℂ⟦X⟧ := ∑ z ∈ roots f, C (z ^ (-t)) * genPole α z

theorem classSeries_clear (α : Fin n → ℕ) (hα : ∀ i, 0 < α i) (f : ℕ) (hf : 0 < f) (m : Fin n → ℕ) (hm : ∀ i, f ∣ α i * m i) (t : ℤ) :
    (∏ i, (1 - ex ((α i * m i : ℕ) : ℂ))) * classSeries α f t =
      X ^ n * ∑ y ∈ (Fintype.piFinset fun i => Finset.range (m i)) with ((f : ℤ) ∣ ((∑ i, α i * y i : ℕ) : ℤ) - t),
        C (f : ℂ) * ex ((∑ i, α i * y i : ℕ) : ℂ) := by
  unfold classSeries
  rw [Finset.mul_sum]
  have h1 : ∀ z ∈ roots f, (∏ i, (1 - ex ((α i * m i : ℕ) : ℂ))) * (C (z ^ (-t)) * genPole α z) =
      X ^ n * ∑ y ∈ Fintype.piFinset fun i => Finset.range (m i), C (z ^ (((∑ i, α i * y i : ℕ) : ℤ) - t)) * ex ((∑ i, α i * y i : ℕ) : ℂ) := by
    intro z hz
    have hz1 := (mem_roots hf z).1 hz
    rw [mul_left_comm, genPole_clear α hα m z fun i => ?_]
    · rw [mul_left_comm, Finset.mul_sum]
      congr 1
      refine Finset.sum_congr rfl fun y _ => ?_
      rw [← mul_assoc, ← map_mul]
      congr 2
      rw [sub_eq_neg_add, zpow_add₀ (root_ne hf hz), zpow_natCast]
    · obtain ⟨c, hc⟩ := hm i
      rw [hc, pow_mul, hz1, one_pow]
  rw [Finset.sum_congr rfl h1, ← Finset.mul_sum, Finset.sum_comm]
  congr 1
  rw [Finset.sum_filter]
  refine Finset.sum_congr rfl fun y _ => ?_
  rw [← Finset.sum_mul, ← map_sum, sum_roots hf]
  split
  · rfl
  · rw [map_zero, zero_mul]

/-- **The residue theorem for the knapsack generating function.** For a common multiple `L` of the coefficients, minus the sum of the residues at the `L`-th roots
of unity is the number of solutions. -/
theorem residues_ways (α : Fin (n + 1) → ℕ) (hα : ∀ i, 0 < α i) (L : ℕ) (hL : 0 < L) (hd : ∀ i, α i ∣ L) (t : ℕ) :
    -coeff n (ex (-(t : ℂ)) * classSeries α L t) = (ways α t : ℂ) := by
  have hLc : (L : ℂ) ≠ 0 := by exact_mod_cast hL.ne'
  have hm : ∀ i, α i * (L / α i) = L := fun i => Nat.mul_div_cancel' (hd i)
  have h1 := classSeries_clear α hα L hL (fun i => L / α i) (fun i => by rw [hm]) t
  simp only [hm] at h1
  rw [Finset.prod_const, Finset.card_univ, Fintype.card_fin] at h1
  have h2 : classSeries α L t = pole 1 (L : ℂ) ^ (n + 1) *
      ∑ y ∈ (Fintype.piFinset fun i => Finset.range (L / α i)) with ((L : ℤ) ∣ ((∑ i, α i * y i : ℕ) : ℤ) - t), C (L : ℂ) * ex ((∑ i, α i * y i : ℕ) : ℂ) := by
    apply mul_left_cancel₀ (pow_ne_zero (n + 1) (one_sub_ex_ne (L : ℂ) hLc))
    rw [h1, ← mul_assoc, ← mul_pow, pole_one _ hLc]
  rw [h2, Finset.mul_sum, Finset.mul_sum, map_sum, ← Finset.sum_neg_distrib]
  have h3 : (ways α t : ℂ) = ((ways α t : ℚ) : ℂ) := by norm_cast
  rw [h3, ways_box α hα L hL hd t]
  rw [Rat.cast_sum, Finset.sum_filter]
  refine Finset.sum_congr rfl fun y hy => ?_
  rw [Fintype.mem_piFinset] at hy
  set w := ∑ i, α i * y i with hw
  have hwl : w < (n + 1) * L := by
    have : ∀ i ∈ Finset.univ, α i * y i < L := by
      intro i _
      have h4 := Finset.mem_range.1 (hy i)
      calc α i * y i < α i * (L / α i) := Nat.mul_lt_mul_of_pos_left h4 (hα i)
        _ = L := hm i
    have h5 := Finset.sum_lt_sum_of_nonempty (Finset.univ_nonempty (α := Fin (n + 1))) this
    simpa using h5
  by_cases h : (L : ℤ) ∣ (w : ℤ) - t
  · rw [if_pos h]
    obtain ⟨c, hc⟩ := h
    -- the term is `qv n (-c)`
    have key : -coeff n (ex (-(t : ℂ)) * (pole 1 (L : ℂ) ^ (n + 1) * (C (L : ℂ) * ex (w : ℂ)))) = qv ℂ n (-c) := by
      have e : ex (-(t : ℂ)) * (pole 1 (L : ℂ) ^ (n + 1) * (C (L : ℂ) * ex (w : ℂ))) =
          C (L : ℂ) * (pole 1 (L : ℂ) ^ (n + 1) * ex ((L : ℂ) * c)) := by
        have : ((L : ℂ) * c) = -(t : ℂ) + (w : ℂ) := by
          have := congrArg (fun x : ℤ => (x : ℂ)) hc
          push_cast at this
          linear_combination -this
        rw [this, ex_add]
        ring
      rw [e, pole_rescale _ hLc, ← rescale_ex, mul_pow, ← map_pow, mul_assoc, ← map_pow, ← map_mul, ← mul_assoc, ← map_mul, coeff_C_mul, coeff_rescale]
      unfold qv
      push_cast
      rw [neg_neg, mul_comm (ex (c : ℂ))]
      have : (L : ℂ) * (1 / L) ^ (n + 1) * L ^ n = 1 := by
        rw [one_div, inv_pow, pow_succ]
        field_simp
      linear_combination -(coeff n (pole (1 : ℂ) 1 ^ (n + 1) * ex (c : ℂ))) * this
    rw [key]
    by_cases h6 : w ≤ t
    · have hc0 : c ≤ 0 := by
        by_contra h7
        have : 0 < (L : ℤ) * c := mul_pos (by exact_mod_cast hL) (by omega)
        omega
      obtain ⟨s, rfl⟩ : ∃ s : ℕ, c = -(s : ℤ) := ⟨c.natAbs, by omega⟩
      have hts : t - w = L * s := by
        zify [h6]
        linear_combination -hc
      rw [if_pos ⟨h6, by rw [hts]; exact Dvd.intro _ rfl⟩, hts, Nat.mul_div_cancel_left _ hL, neg_neg, qv_nonneg, Rat.cast_natCast]
    · rw [if_neg fun h7 => h6 h7.1]
      have hc0 : 0 < c := by
        by_contra h7
        have : (L : ℤ) * c ≤ 0 := mul_nonpos_of_nonneg_of_nonpos (by positivity) (by omega)
        omega
      obtain ⟨s, rfl⟩ : ∃ s : ℕ, c = (s : ℤ) := ⟨c.natAbs, by omega⟩
      rw [qv_neg n s (by omega), Rat.cast_zero]
      by_contra h8
      have h9 : (n + 1) * L ≤ s * L := Nat.mul_le_mul_right L (by omega)
      have : (w : ℤ) = t + L * s := by linarith
      have : w = t + L * s := by exact_mod_cast this
      nlinarith
  · rw [if_neg h, if_neg, Rat.cast_zero]
    rintro ⟨h6, h7⟩
    apply h
    obtain ⟨c, hc⟩ := h7
    exact ⟨-c, by zify [h6] at hc; linear_combination -hc⟩

end Verif.TopK
