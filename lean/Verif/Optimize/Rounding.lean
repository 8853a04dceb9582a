import Verif.Optimize.Props
import Mathlib.Algebra.Order.Round
import Mathlib.Tactic.FieldSimp
import Mathlib.Algebra.BigOperators.Field
import Mathlib.Tactic.Positivity

/-!
# When 150 bits are enough

Integer multiples of a power of two with at most 150 bits are not changed by rounding, so polyhedra whose vertices have denominators that are powers of two are
safe as long as the numbers are not too large.
-/

namespace Verif.Optimize

open Verif.Barvinok (Vec)
open Verif.Barvinok.Spec (dot)

variable {n : ℕ}

theorem roundEven_int (z : ℤ) : roundEven z = z := by
  unfold roundEven
  rw [Int.floor_intCast, if_pos (by simp)]

/-- Numbers with at most 150 bits are not changed. -/
theorem rnd_exact (a e : ℤ) (ha : |a| ≤ 2 ^ 150) : rnd (a * 2 ^ e) = a * 2 ^ e := by
  unfold rnd
  by_cases h0 : (a : ℚ) * 2 ^ e = 0
  · rw [if_pos h0, h0]
  · rw [if_neg h0]
    set q : ℚ := a * 2 ^ e with hq
    have hpos : 0 < |q| := abs_pos.mpr h0
    set L := Int.log 2 |q| with hL
    have h1 : ((2 : ℕ) : ℚ) ^ L ≤ |q| := Int.zpow_log_le_self (by norm_num) hpos
    have h2 : ∃ z : ℤ, q / 2 ^ (L - 149) = z := by
      have habs : |q| ≤ 2 ^ (150 + e) := by
        rw [hq, abs_mul, abs_of_pos (zpow_pos (by norm_num) e : (0 : ℚ) < 2 ^ e), zpow_add₀ (by norm_num)]
        have : |(a : ℚ)| ≤ 2 ^ (150 : ℤ) := by exact_mod_cast ha
        exact mul_le_mul_of_nonneg_right this (zpow_pos (by norm_num) e).le
      have hLe : L ≤ 150 + e := by
        have : ((2 : ℚ)) ^ L ≤ 2 ^ (150 + e) := le_trans (by exact_mod_cast h1) habs
        exact (zpow_le_zpow_iff_right₀ (by norm_num)).mp this
      rcases eq_or_lt_of_le hLe with hLe | hLe
      · have hq2 : |q| = 2 ^ (150 + e) := le_antisymm habs (by rw [← hLe]; exact_mod_cast h1)
        have e3 : (2 : ℚ) ^ (150 + e) / 2 ^ (L - 149) = ((2 ^ 149 : ℤ) : ℚ) := by
          rw [← zpow_sub₀ (by norm_num), show 150 + e - (L - 149) = ((149 : ℕ) : ℤ) by omega, zpow_natCast]
          norm_num
        rcases abs_eq ((zpow_pos (by norm_num) (150 + e)).le : (0 : ℚ) ≤ 2 ^ (150 + e)) |>.mp hq2 with h | h
        · exact ⟨2 ^ 149, by rw [h, e3]⟩
        · exact ⟨-2 ^ 149, by rw [h, neg_div, e3]; push_cast; rfl⟩
      · refine ⟨a * 2 ^ (e - (L - 149)).toNat, ?_⟩
        rw [hq, mul_div_assoc, ← zpow_sub₀ (by norm_num)]
        push_cast
        rw [← zpow_natCast, Int.toNat_of_nonneg (by omega)]
    obtain ⟨z, hz⟩ := h2
    rw [hz, roundEven_int, ← hz]
    exact div_mul_cancel₀ _ (zpow_ne_zero _ (by norm_num))

theorem rnd_int (a : ℤ) (ha : |a| ≤ 2 ^ 150) : rnd a = a := by
  have := rnd_exact a 0 ha
  simpa using this

theorem rnd_div (a : ℤ) (e : ℕ) (ha : |a| ≤ 2 ^ 150) : rnd ((a : ℚ) / 2 ^ e) = (a : ℚ) / 2 ^ e := by
  have := rnd_exact a (-e) ha
  rwa [zpow_neg, zpow_natCast, ← div_eq_mul_inv] at this

/-- Sufficient for exactness: all denominators are powers of two, at most `2 ^ e`, and all numbers in the computation have at most 150 bits. -/
structure Dyadic (cost : Vec n) (x : Fin n → ℤ × ℤ) (e : ℕ) : Prop where
  den : ∀ i, ∃ k ≤ e, (x i).2 = 2 ^ k
  num : ∀ i, |(x i).1| ≤ 2 ^ 150
  cost_le : ∀ i, |cost i| ≤ 2 ^ 150
  small : ∑ i, |cost i| * |(x i).1| * 2 ^ e ≤ 2 ^ 150
  exp : e ≤ 150

theorem rrEntry_exact {cost : Vec n} {x : Fin n → ℤ × ℤ} {e : ℕ} (h : Dyadic cost x e) (i : Fin n) : rrEntry (x i) = point x i := by
  obtain ⟨k, hk, hd⟩ := h.den i
  unfold rrEntry point
  rw [rnd_int _ (h.num i), rnd_int (x i).2 (by
    rw [hd, abs_of_pos (by positivity)]
    exact pow_le_pow_right₀ (by norm_num) (hk.trans h.exp)), hd]
  push_cast
  exact rnd_div _ _ (h.num i)

theorem rrDot_exact {cost : Vec n} {x : Fin n → ℤ × ℤ} {e : ℕ} (h : Dyadic cost x e) : rrDot cost x = ∑ i, cost i * point x i := by
  have hp : ∀ i, ∃ b : ℤ, (cost i : ℚ) * point x i = (b : ℚ) / 2 ^ e ∧ |b| ≤ |cost i| * |(x i).1| * 2 ^ e := by
    intro i
    obtain ⟨k, hk, hd⟩ := h.den i
    refine ⟨cost i * (x i).1 * 2 ^ (e - k), ?_, ?_⟩
    · unfold point
      rw [hd]
      push_cast
      rw [mul_div_assoc', div_eq_div_iff (by positivity) (by positivity), mul_assoc _ (2 ^ (e - k) : ℚ), ← pow_add, Nat.sub_add_cancel hk]
    · rw [abs_mul, abs_mul, abs_of_pos (by positivity : (0 : ℤ) < 2 ^ (e - k))]
      have : (2 : ℤ) ^ (e - k) ≤ 2 ^ e := pow_le_pow_right₀ (by norm_num) (Nat.sub_le _ _)
      gcongr
  choose b hb hb' using hp
  have hterm : ∀ i, rnd (rnd (cost i) * rrEntry (x i)) = (b i : ℚ) / 2 ^ e := by
    intro i
    rw [rnd_int _ (h.cost_le i), rrEntry_exact h, hb i]
    refine rnd_div _ _ ((hb' i).trans (le_trans ?_ h.small))
    exact Finset.single_le_sum (f := fun i => |cost i| * |(x i).1| * 2 ^ e) (fun j _ => by positivity) (Finset.mem_univ i)
  have hfold : ∀ (l : List (Fin n)) (s : ℤ), |s| + (l.map fun i => |b i|).sum ≤ 2 ^ 150 →
      l.foldl (fun s i => rnd (s + rnd (rnd (cost i) * rrEntry (x i)))) ((s : ℚ) / 2 ^ e) = ((s + (l.map b).sum : ℤ) : ℚ) / 2 ^ e := by
    intro l
    induction l with
    | nil => intro s _; simp
    | cons i l ih =>
      intro s hs
      rw [List.map_cons, List.sum_cons] at hs
      have hnn : 0 ≤ (l.map fun i => |b i|).sum := List.sum_nonneg (by simp)
      have hsb := abs_add_le s (b i)
      rw [List.foldl_cons, hterm, ← add_div, ← Int.cast_add, rnd_div _ _ (by omega), ih _ (by omega), List.map_cons, List.sum_cons, add_assoc]
  have hsum : ((List.finRange n).map fun i => |b i|).sum ≤ 2 ^ 150 := by
    rw [← List.ofFn_eq_map, List.sum_ofFn]
    exact (Finset.sum_le_sum fun i _ => hb' i).trans h.small
  have := hfold (List.finRange n) 0 (by simpa using hsum)
  unfold rrDot
  rw [Int.cast_zero, zero_div] at this
  rw [this, zero_add, ← List.ofFn_eq_map, List.sum_ofFn]
  push_cast
  rw [Finset.sum_div]
  exact Finset.sum_congr rfl fun i _ => (hb i).symm

/-- If the solutions of the LP relaxations are dyadic, the rounding does no harm. -/
theorem roundingOk_of_dyadic (T : Tools n) (eqs ineqs : List (Row n)) (cost : Vec n) (e e' : ℕ)
    (h : Dyadic cost (T.lp (lpFile eqs ineqs cost)) e) (h' : Dyadic cost (T.lp (lpFile eqs ineqs (-cost))) e') : RoundingOk T eqs ineqs cost :=
  ⟨by rw [rrDot_exact h], by rw [rrDot_exact h']⟩

end Verif.Optimize
