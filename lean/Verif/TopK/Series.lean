import Mathlib.NumberTheory.Bernoulli
import Mathlib.RingTheory.PowerSeries.Derivative
import Mathlib.RingTheory.PowerSeries.Exp
import Mathlib.RingTheory.PowerSeries.Inverse
import Mathlib.Tactic.Ring
import Mathlib.Tactic.LinearCombination
import Mathlib.Tactic.FieldSimp

/-!
# Power series behind the residues of `top-ehrhart-knapsack`

`ex a` is `exp(a x)`; `pole w a` is the power series `x / (1 - w exp(a x))`.
-/

namespace Verif.TopK

open PowerSeries

variable {K : Type*} [Field K] [CharZero K]

/-- `exp(a x)`. -/
noncomputable def ex (a : K) : K⟦X⟧ := rescale a (exp K)

theorem ex_add (a b : K) : ex (a + b) = ex a * ex b := by
  unfold ex
  rw [exp_mul_exp_eq_exp_add]

theorem coeff_ex (a : K) (n : ℕ) : coeff n (ex a) = a ^ n / (n.factorial : K) := by
  unfold ex
  rw [coeff_rescale, coeff_exp]
  simp [div_eq_mul_inv]

theorem ex_zero : ex (0 : K) = 1 := by
  ext n
  rw [coeff_ex, coeff_one]
  by_cases h : n = 0
  · subst h; simp
  · simp [h]

theorem ex_pow (a : K) (n : ℕ) : ex a ^ n = ex (a * n) := by
  induction n with
  | zero => simp [ex_zero]
  | succ n ih => rw [pow_succ, ih, ← ex_add]; congr 1; push_cast; ring

theorem ex_sum {ι : Type*} (s : Finset ι) (a : ι → K) : ex (∑ i ∈ s, a i) = ∏ i ∈ s, ex (a i) := by
  classical
  induction s using Finset.induction_on with
  | empty => simp [ex_zero]
  | insert i s hi ih => rw [Finset.sum_insert hi, Finset.prod_insert hi, ex_add, ih]

theorem constantCoeff_ex (a : K) : constantCoeff (ex a) = 1 := by
  rw [← coeff_zero_eq_constantCoeff_apply, coeff_ex]; simp

theorem rescale_ex (c a : K) : rescale c (ex a) = ex (c * a) := by
  ext n
  rw [coeff_rescale, coeff_ex, coeff_ex, mul_pow]
  ring

/-- `∑ B_m (a x)^m / m!`. -/
noncomputable def td (a : K) : K⟦X⟧ := rescale a (bernoulliPowerSeries K)

theorem td_mul (a : K) : (ex a - 1) * td a = C a * X := by
  have h := congrArg (rescale a) (bernoulliPowerSeries_mul_exp_sub_one K)
  rw [map_mul, map_sub, map_one, rescale_X] at h
  unfold td ex
  rw [mul_comm]
  exact h

theorem coeff_td (a : K) (m : ℕ) : coeff m (td a) = a ^ m * ((bernoulli m : ℚ) : K) / (m.factorial : K) := by
  unfold td bernoulliPowerSeries
  rw [coeff_rescale, coeff_mk]
  simp
  ring

open Classical in
/-- `x / (1 - w exp(a x))`. -/
noncomputable def pole (w a : K) : K⟦X⟧ :=
  if w = 1 then -(C (1 / a) * td a) else X * (1 - C w * ex a)⁻¹

theorem pole_mul (w a : K) (ha : a ≠ 0) : (1 - C w * ex a) * pole w a = X := by
  unfold pole
  split
  · rename_i h
    subst h
    rw [map_one, one_mul]
    have : (1 - ex a) * -(C (1 / a) * td a) = C (1 / a) * ((ex a - 1) * td a) := by ring
    rw [this, td_mul, ← mul_assoc, ← map_mul, one_div, inv_mul_cancel₀ ha, map_one, one_mul]
  · rename_i h
    have h0 : constantCoeff (1 - C w * ex a) ≠ 0 := by
      rw [map_sub, map_one, map_mul, constantCoeff_C, constantCoeff_ex, mul_one]
      exact sub_ne_zero.2 (Ne.symm h)
    rw [mul_left_comm, PowerSeries.mul_inv_cancel _ h0, mul_one]

theorem one_sub_ne (w a : K) (ha : a ≠ 0) : (1 - C w * ex a : K⟦X⟧) ≠ 0 := by
  intro h
  have := pole_mul w a ha
  rw [h, zero_mul] at this
  exact X_ne_zero this.symm

theorem pole_one (a : K) (ha : a ≠ 0) : (1 - ex a) * pole 1 a = X := by
  have := pole_mul 1 a ha
  rwa [map_one, one_mul] at this

theorem one_sub_ex_ne (a : K) (ha : a ≠ 0) : (1 - ex a : K⟦X⟧) ≠ 0 := by
  have := one_sub_ne 1 a ha
  rwa [map_one, one_mul] at this

/-- Away from a pole the series starts with `x`. -/
theorem pole_dvd (w a : K) (hw : w ≠ 1) : (X : K⟦X⟧) ∣ pole w a := by
  unfold pole
  rw [if_neg hw]
  exact Dvd.intro _ rfl

theorem pole_rescale (a : K) (ha : a ≠ 0) : pole 1 a = C (1 / a) * rescale a (pole (1 : K) 1) := by
  apply mul_left_cancel₀ (one_sub_ex_ne a ha)
  rw [pole_one a ha]
  have h := congrArg (rescale a) (pole_one (1 : K) one_ne_zero)
  rw [map_mul, map_sub, map_one, rescale_X, rescale_ex, mul_one] at h
  rw [mul_left_comm, h, ← mul_assoc, ← map_mul, one_div, inv_mul_cancel₀ ha, map_one, one_mul]

/-! ## The residues of `exp(-s x) / (1 - exp x)^n` -/

/-- Minus the coefficient of `1/x` of `exp(-s x) / (1 - exp x)^(n+1)`. -/
noncomputable def qv (K : Type*) [Field K] [CharZero K] (n : ℕ) (s : ℤ) : K := -coeff n (ex (-(s : K)) * pole (1 : K) 1 ^ (n + 1))

theorem qv_zero (s : ℤ) : qv K 0 s = 1 := by
  have h := congrArg (coeff 1) (pole_one (1 : K) one_ne_zero)
  unfold qv
  have h0 : constantCoeff (pole (1 : K) 1) = -1 := by
    unfold pole
    rw [if_pos rfl, map_neg, map_mul, constantCoeff_C, ← coeff_zero_eq_constantCoeff_apply, coeff_td]
    simp
  rw [coeff_zero_eq_constantCoeff_apply, map_mul, constantCoeff_ex, pow_one, h0]
  ring

theorem qv_step (n : ℕ) (s : ℤ) : qv K (n + 1) s - qv K (n + 1) (s - 1) = qv K n s := by
  unfold qv
  have h := pole_one (1 : K) one_ne_zero
  have e : ex (-((s - 1 : ℤ) : K)) = ex (-(s : K)) * ex 1 := by
    rw [← ex_add]; congr 1; push_cast; ring
  rw [e]
  have : ex (-(s : K)) * pole (1 : K) 1 ^ (n + 1 + 1) - ex (-(s : K)) * ex 1 * pole (1 : K) 1 ^ (n + 1 + 1) =
      X * (ex (-(s : K)) * pole (1 : K) 1 ^ (n + 1)) := by
    linear_combination ex (-(s : K)) * pole (1 : K) 1 ^ (n + 1) * h
  have h2 := congrArg (coeff (n + 1)) this
  rw [map_sub, coeff_succ_X_mul] at h2
  linear_combination -h2

theorem qv_neg_one (n : ℕ) : qv K (n + 1) (-1) = 0 := by
  unfold qv
  set P := pole (1 : K) 1 with hP
  have h : (1 - ex 1) * P = X := pole_one (1 : K) one_ne_zero
  have hd := congrArg (derivative K) h
  have hex : derivative K (ex (1 : K)) = ex 1 := by
    ext k
    rw [coeff_derivative, coeff_ex, coeff_ex, Nat.factorial_succ]
    have h1 : ((k : K) + 1) ≠ 0 := by exact_mod_cast Nat.succ_ne_zero k
    have h2 : (k.factorial : K) ≠ 0 := by exact_mod_cast Nat.factorial_ne_zero k
    push_cast
    rw [one_pow, one_pow]
    field_simp
  rw [Derivation.leibniz, map_sub, hex, derivative_X, derivative_one] at hd
  simp only [smul_eq_mul] at hd
  have key : ((n : K⟦X⟧) + 1) * (ex 1 * P ^ (n + 1 + 1)) = X * derivative K (P ^ (n + 1)) - ((n : K⟦X⟧) + 1) * P ^ (n + 1) := by
    rw [derivative_pow]
    push_cast
    linear_combination -((n : K⟦X⟧) + 1) * P ^ (n + 1) * hd + ((n : K⟦X⟧) + 1) * P ^ n * derivative K P * h
  have h2 := congrArg (coeff (n + 1)) key
  have ec : ∀ f : K⟦X⟧, coeff (n + 1) (((n : K⟦X⟧) + 1) * f) = ((n : K) + 1) * coeff (n + 1) f := by
    intro f
    have : ((n : K⟦X⟧) + 1) = C ((n : K) + 1) := by simp
    rw [this, coeff_C_mul]
  rw [map_sub, ec, ec, coeff_succ_X_mul, coeff_derivative] at h2
  have h1 : ((n : K) + 1) ≠ 0 := by exact_mod_cast Nat.succ_ne_zero n
  have h3 : coeff (n + 1) (ex 1 * P ^ (n + 1 + 1)) = 0 := by
    apply mul_left_cancel₀ h1
    rw [h2]; ring
  have e : ex (-((-1 : ℤ) : K)) = ex 1 := by congr 1; push_cast; ring
  rw [e, h3, neg_zero]

/-- For `s > -(n+1)` the residue is the binomial coefficient `(s+n choose n)`. -/
theorem qv_nonneg (n s : ℕ) : qv K n s = ((s + n).choose n : ℕ) := by
  induction n generalizing s with
  | zero => rw [qv_zero]; simp
  | succ n ih =>
    induction s with
    | zero =>
      have := qv_step (K := K) n 0
      rw [show (0 : ℤ) - 1 = -1 by ring, qv_neg_one, sub_zero] at this
      rw [show ((0 : ℕ) : ℤ) = 0 from rfl, this, show (0 : ℤ) = ((0 : ℕ) : ℤ) from rfl, ih 0]
      simp
    | succ s ihs =>
      have := qv_step (K := K) n ((s + 1 : ℕ) : ℤ)
      rw [show ((s + 1 : ℕ) : ℤ) - 1 = (s : ℤ) by push_cast; ring, ihs, ih] at this
      rw [sub_eq_iff_eq_add.1 this]
      have h := Nat.choose_succ_succ (s + 1 + n) n
      rw [show s + 1 + (n + 1) = (s + 1 + n).succ by omega, h, show s + (n + 1) = s + 1 + n by omega]
      push_cast; ring

theorem qv_neg (n s : ℕ) (h0 : 0 < s) (hs : s < n + 1) : qv K n (-(s : ℤ)) = 0 := by
  induction n generalizing s with
  | zero => omega
  | succ n ih =>
    induction s with
    | zero => omega
    | succ s ihs =>
      by_cases h1 : s = 0
      · subst h1
        simpa using qv_neg_one (K := K) n
      · have h := qv_step (K := K) n (-(s : ℤ))
        rw [ihs (by omega) (by omega), ih s (by omega) (by omega), show -(s : ℤ) - 1 = -((s + 1 : ℕ) : ℤ) by push_cast; ring] at h
        linear_combination -h

end Verif.TopK
