import Mathlib.Algebra.BigOperators.Ring.Finset
import Mathlib.Algebra.Order.BigOperators.Group.Finset
import Mathlib.Algebra.Order.BigOperators.Ring.Finset
import Mathlib.Algebra.BigOperators.GroupWithZero.Finset
import Mathlib.Tactic.Linarith
import Mathlib.Tactic.Ring
import Mathlib.Tactic.Positivity
import Mathlib.Data.Int.Basic

/-!
Kannan's argument: with multipliers `l^(m+1) + l^e` for different exponents `1 ≤ e ≤ m`, a combination of integers that
are bounded above vanishes only if all of them do.
-/

namespace Verif.Aggregate

theorem kannan_core (G : Finset ℕ) (e : ℕ → ℕ) (he : Set.InjOn e G) (m : ℕ) (hem : ∀ k ∈ G, e k ≤ m)
    (hcard : G.card ≤ m) (y : ℕ → ℤ) (B l : ℤ) (hB : 0 ≤ B) (hy : ∀ k ∈ G, y k ≤ B) (hl : m * B < l)
    (hsum : ∑ k ∈ G, (l ^ (m + 1) + l ^ e k) * y k = 0) : ∀ k ∈ G, y k = 0 := by
  have hl1 : 1 ≤ l := by nlinarith [mul_nonneg (Int.natCast_nonneg m) hB]
  set P := ∑ k ∈ G, max (y k) 0 with hP
  set N := ∑ k ∈ G, max (-(y k)) 0 with hN
  set Y := ∑ k ∈ G, y k with hY
  set T := ∑ k ∈ G, l ^ e k * y k with hT
  have hPB : P ≤ m * B := by
    calc P ≤ ∑ k ∈ G, B := Finset.sum_le_sum fun k hk => max_le (hy k hk) hB
      _ = G.card * B := by simp
      _ ≤ m * B := mul_le_mul_of_nonneg_right (by exact_mod_cast hcard) hB
  have hYPN : Y = P - N := by
    rw [hY, hP, hN, ← Finset.sum_sub_distrib]
    refine Finset.sum_congr rfl fun k _ => ?_
    rcases le_total (y k) 0 with h | h
    · rw [max_eq_right h, max_eq_left (by omega)]; ring
    · rw [max_eq_left h, max_eq_right (by omega)]; ring
  have hYT : l ^ (m + 1) * Y + T = 0 := by
    rw [← hsum, hY, hT, Finset.mul_sum, ← Finset.sum_add_distrib]
    exact Finset.sum_congr rfl fun k _ => by ring
  have hpow : ∀ k ∈ G, l ^ e k ≤ l ^ m := fun k hk => pow_le_pow_right₀ hl1 (hem k hk)
  have hpos : ∀ n : ℕ, 0 < l ^ n := fun n => by positivity
  have hTP : T ≤ l ^ m * P := by
    rw [hT, hP, Finset.mul_sum]
    refine Finset.sum_le_sum fun k hk => ?_
    calc l ^ e k * y k ≤ l ^ e k * max (y k) 0 := mul_le_mul_of_nonneg_left (le_max_left _ _) (hpos _).le
      _ ≤ l ^ m * max (y k) 0 := mul_le_mul_of_nonneg_right (hpow k hk) (le_max_right _ _)
  have hTN : -T ≤ l ^ m * N := by
    rw [hT, hN, Finset.mul_sum, ← Finset.sum_neg_distrib]
    refine Finset.sum_le_sum fun k hk => ?_
    calc -(l ^ e k * y k) = l ^ e k * -y k := by ring
      _ ≤ l ^ e k * max (-y k) 0 := mul_le_mul_of_nonneg_left (le_max_left _ _) (hpos _).le
      _ ≤ l ^ m * max (-y k) 0 := mul_le_mul_of_nonneg_right (hpow k hk) (le_max_right _ _)
  have hPn : 0 ≤ P := Finset.sum_nonneg fun k _ => le_max_right _ _
  have hlm := hpos m
  have hl' : l ^ (m + 1) = l ^ m * l := pow_succ l m
  have hPl : l ^ m * P < l ^ (m + 1) := by rw [hl']; exact mul_lt_mul_of_pos_left (by omega) hlm
  have hY0 : Y = 0 := by
    rcases lt_trichotomy Y 0 with h | h | h
    · exfalso
      have h1 : l ^ (m + 1) * 1 ≤ l ^ (m + 1) * -Y := mul_le_mul_of_nonneg_left (by omega) (hpos _).le
      linarith
    · exact h
    · exfalso
      have h1 : l ^ (m + 1) * 1 ≤ l ^ (m + 1) * Y := mul_le_mul_of_nonneg_left (by omega) (hpos _).le
      have h2 : l ^ m * N ≤ l ^ m * P := mul_le_mul_of_nonneg_left (by omega) hlm.le
      linarith
  have hT0 : T = 0 := by rw [hY0] at hYT; linarith
  have hNB : N ≤ m * B := by omega
  have habs : ∀ k ∈ G, |y k| < l := by
    intro k hk
    have h1 : max (y k) 0 ≤ P := Finset.single_le_sum (f := fun k => max (y k) 0) (fun i _ => le_max_right _ _) hk
    have h2 : max (-y k) 0 ≤ N := Finset.single_le_sum (f := fun k => max (-y k) 0) (fun i _ => le_max_right _ _) hk
    have h3 := le_max_left (y k) 0
    have h4 := le_max_left (-y k) 0
    rw [abs_lt]
    omega
  by_contra hne
  push Not at hne
  obtain ⟨k0, hk0, hyk0⟩ := hne
  obtain ⟨k, hk, hmin⟩ := Finset.exists_min_image (G.filter fun k => y k ≠ 0) e ⟨k0, Finset.mem_filter.2 ⟨hk0, hyk0⟩⟩
  rw [Finset.mem_filter] at hk
  have hdvd : l ^ (e k + 1) ∣ ∑ j ∈ G.erase k, l ^ e j * y j := by
    refine Finset.dvd_sum fun j hj => ?_
    rw [Finset.mem_erase] at hj
    by_cases h0 : y j = 0
    · rw [h0, mul_zero]; exact dvd_zero _
    · have h1 := hmin j (Finset.mem_filter.2 ⟨hj.2, h0⟩)
      have h2 : e j ≠ e k := fun h => hj.1 (he hj.2 hk.1 h)
      exact Dvd.dvd.mul_right (pow_dvd_pow l (by omega)) _
  have hsplit := Finset.add_sum_erase G (fun j => l ^ e j * y j) hk.1
  rw [← hT, hT0] at hsplit
  have hd2 : l ^ (e k + 1) ∣ l ^ e k * y k := by
    have : l ^ e k * y k = -∑ j ∈ G.erase k, l ^ e j * y j := by
      linarith
    rw [this]
    exact hdvd.neg_right
  rw [pow_succ] at hd2
  have hd3 : l ∣ y k := (mul_dvd_mul_iff_left (hpos (e k)).ne').1 hd2
  exact hk.2 (Int.eq_zero_of_abs_lt_dvd hd3 (habs k hk.1))

end Verif.Aggregate
