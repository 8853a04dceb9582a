import Verif.PolySubst.Model
import Mathlib.RingTheory.PowerSeries.Inverse
import Mathlib.RingTheory.PowerSeries.WellKnown
import Mathlib.Algebra.BigOperators.NatAntidiagonal
import Mathlib.Data.Nat.Choose.Sum
import Mathlib.Tactic.FieldSimp
import Mathlib.Tactic.LinearCombination

/-!
# The arrays of the program are truncated power series
-/

namespace Verif.PolySubst

open PowerSeries

/-- The first `d + 1` entries of the array are the coefficients of the series. -/
def Agrees (d : ℕ) (a : Arr) (f : PowerSeries ℚ) : Prop := ∀ k ≤ d, (a k : ℚ) = coeff k f

/-- `1 + s`. -/
noncomputable def W : PowerSeries ℚ := 1 + X

theorem coeff_W_pow (k j : ℕ) : coeff j (W ^ k) = (k.choose j : ℚ) := by
  induction k generalizing j with
  | zero =>
    rw [pow_zero, coeff_one]
    cases j with
    | zero => simp
    | succ j => simp
  | succ k ih =>
    rw [pow_succ, W, mul_add, mul_one, map_add]
    cases j with
    | zero =>
      have h := ih 0
      rw [W] at h
      rw [h]
      simp
    | succ j =>
      rw [coeff_succ_mul_X]
      have h1 := ih j
      have h2 := ih (j + 1)
      rw [W] at h1 h2
      rw [h1, h2, Nat.choose_succ_succ]
      push_cast
      ring

/-- `((1 + s)^k - 1) / s`. -/
noncomputable def G (k : ℕ) : PowerSeries ℚ := PowerSeries.mk fun j => (k.choose (j + 1) : ℚ)

theorem X_mul_G (k : ℕ) : X * G k = W ^ k - 1 := by
  ext j
  cases j with
  | zero => rw [map_sub, coeff_W_pow]; simp
  | succ j => rw [coeff_succ_X_mul, map_sub, coeff_W_pow, coeff_one]; simp [G]

theorem constCoeff_G (k : ℕ) : constantCoeff (G k) = (k : ℚ) := by
  rw [← coeff_zero_eq_constantCoeff_apply]; simp [G]

theorem constCoeff_W_pow (k : ℕ) : constantCoeff (W ^ k) = 1 := by
  rw [← coeff_zero_eq_constantCoeff_apply, coeff_W_pow]; simp

theorem choose_step (k j : ℕ) : (k.choose j : ℤ) * ((k : ℤ) - j) = (k.choose (j + 1) : ℤ) * (j + 1) := by
  have h := Nat.choose_succ_right_eq k j
  rcases le_or_gt j k with hj | hj
  · have : (k.choose (j + 1) * (j + 1) : ℤ) = (k.choose j * ((k - j : ℕ) : ℤ) : ℤ) := by exact_mod_cast h
    rw [this, Nat.cast_sub hj]
  · rw [Nat.choose_eq_zero_of_lt hj, Nat.choose_eq_zero_of_lt (by omega)]
    simp

theorem factorCoeff_eq (k j : ℕ) : factorCoeff (k : ℤ) j = (k.choose (j + 1) : ℤ) := by
  induction j with
  | zero => simp [factorCoeff]
  | succ j ih =>
    rw [factorCoeff, ih]
    have h := choose_step k (j + 1)
    push_cast at h
    rw [h]
    rw [show (j : ℤ) + 1 + 1 = j + 2 by ring]
    exact Int.mul_fdiv_cancel _ (by omega)

theorem numCoeff_eq (k j : ℕ) : numCoeff (k : ℤ) j = (k.choose j : ℤ) := by
  induction j with
  | zero => simp [numCoeff]
  | succ j ih =>
    rw [numCoeff, ih]
    have h := choose_step k j
    rw [show (k : ℤ) + 1 - (j + 1) = k - j by ring, h]
    exact Int.mul_fdiv_cancel _ (by omega)

theorem agrees_factor (d k : ℕ) : Agrees d (factorCoeff (k : ℤ)) (G k) := by
  intro j _
  rw [factorCoeff_eq]
  simp [G]

theorem agrees_num (d k : ℕ) : Agrees d (numCoeff (k : ℤ)) (W ^ k) := by
  intro j _
  rw [numCoeff_eq, coeff_W_pow]
  simp

/-! ### Products -/

/-- The Cauchy product. -/
def conv (D T : Arr) (k : ℕ) : ℤ := ((List.range (k + 1)).map fun m => D m * T (k - m)).sum

theorem mulInto_other (d : ℕ) (D T : Arr) (k : ℕ) (hk : d < k) : mulInto d D T k = D k := by
  induction d generalizing D with
  | zero => simp [mulInto, show k ≠ 0 by omega]
  | succ d ih =>
    unfold mulInto at ih ⊢
    rw [List.range_succ, List.reverse_append, List.reverse_singleton, List.singleton_append, List.foldl_cons, ih _ (by omega),
      Function.update_of_ne (by omega)]

theorem mulInto_eq (d : ℕ) (D T : Arr) (k : ℕ) (hk : k ≤ d) : mulInto d D T k = conv D T k := by
  induction d generalizing D with
  | zero =>
    have : k = 0 := by omega
    subst this
    simp [mulInto, conv]
  | succ d ih =>
    have e : mulInto (d + 1) D T = mulInto d (Function.update D (d + 1) (conv D T (d + 1))) T := by
      have hr : (List.range (d + 1 + 1)).reverse = (d + 1) :: (List.range (d + 1)).reverse := by
        rw [List.range_succ, List.reverse_append, List.reverse_singleton, List.singleton_append]
      unfold mulInto conv
      rw [hr, List.foldl_cons]
    rw [e]
    rcases Nat.lt_or_ge d k with h | h
    · have : k = d + 1 := by omega
      subst this
      rw [mulInto_other _ _ _ _ (by omega), Function.update_self]
    · rw [ih _ h]
      unfold conv
      congr 1
      refine List.map_congr_left fun m hm => ?_
      rw [List.mem_range] at hm
      rw [Function.update_of_ne (by omega)]

theorem agrees_mul (d : ℕ) (D T : Arr) (f g : PowerSeries ℚ) (hD : Agrees d D f) (hT : Agrees d T g) :
    Agrees d (mulInto d D T) (f * g) := by
  intro k hk
  rw [mulInto_eq d D T k hk, coeff_mul, Finset.Nat.sum_antidiagonal_eq_sum_range_succ_mk, conv, ← List.sum_toFinset _ List.nodup_range,
    List.toFinset_range]
  push_cast
  refine Finset.sum_congr rfl fun m hm => ?_
  rw [Finset.mem_range] at hm
  rw [hD m (by omega), hT (k - m) (by omega)]

/-! ### Division -/

theorem foldl_sub (f : ℕ → ℤ) (l : List ℕ) (x : ℤ) : l.foldl (fun x m => x - f m) x = x - (l.map f).sum := by
  induction l generalizing x with
  | nil => simp
  | cons a l ih => rw [List.foldl_cons, ih, List.map_cons, List.sum_cons]; ring

/-- State of the division after `j` rounds. -/
structure DivInv (d : ℕ) (N D : Arr) (g : PowerSeries ℚ) (j : ℕ) (s : DivState) : Prop where
  temp : s.temp = D 0 ^ j
  q : ∀ i ≤ j, (s.q i : ℚ) = (D 0 : ℚ) ^ (i + 1) * coeff i g
  D0 : s.D 0 = D 0
  done : ∀ i, 1 ≤ i → i ≤ j → s.D i = D i * D 0 ^ (i - 1)
  rest : ∀ i, j < i → s.D i = D i

theorem divInv_step (d : ℕ) (N D : Arr) (f n g : PowerSeries ℚ) (hD : Agrees d D f) (hN : Agrees d N n) (hg : f * g = n) (j : ℕ) (hj : j < d)
    (s : DivState) (h : DivInv d N D g j s) : DivInv d N D g (j + 1) (divStep N s (j + 1)) := by
  have hne : ∀ i, i ≠ j + 1 → (divStep N s (j + 1)).D i = s.D i := fun i hi => Function.update_of_ne hi _ _
  have heq : (divStep N s (j + 1)).D (j + 1) = D (j + 1) * D 0 ^ j := by
    show Function.update s.D (j + 1) (s.D (j + 1) * s.temp) (j + 1) = _
    rw [Function.update_self, h.rest _ (by omega), h.temp]
  have hdone : ∀ i, 1 ≤ i → i ≤ j + 1 → (divStep N s (j + 1)).D i = D i * D 0 ^ (i - 1) := by
    intro i h1 h2
    rcases Nat.lt_or_ge j i with h3 | h3
    · have : i = j + 1 := by omega
      subst this
      rw [heq, Nat.add_sub_cancel]
    · rw [hne i (by omega), h.done i h1 h3]
  refine ⟨?_, ?_, ?_, hdone, ?_⟩
  · show s.temp * s.D 0 = _
    rw [h.temp, h.D0, pow_succ]
  · intro i hi
    show ((Function.update s.q (j + 1) _ i : ℤ) : ℚ) = _
    rcases Nat.lt_or_ge j i with h3 | h3
    · have : i = j + 1 := by omega
      subst this
      rw [Function.update_self, foldl_sub]
      have hs : ∀ m ∈ List.range' 1 (j + 1), s.q (j + 1 - m) * Function.update s.D (j + 1) (s.D (j + 1) * s.temp) m =
          s.q (j + 1 - m) * (D m * D 0 ^ (m - 1)) := by
        intro m hm
        rw [List.mem_range'_1] at hm
        rw [← hdone m (by omega) (by omega)]
        rfl
      rw [List.map_congr_left hs, h.temp, h.D0]
      have hc := congrArg (coeff (j + 1)) hg
      rw [coeff_mul, Finset.Nat.sum_antidiagonal_eq_sum_range_succ_mk, Finset.sum_range_succ'] at hc
      have hr : ((((List.range' 1 (j + 1)).map fun m => s.q (j + 1 - m) * (D m * D 0 ^ (m - 1))).sum : ℤ) : ℚ) =
          (D 0 : ℚ) ^ (j + 1) * ∑ k ∈ Finset.range (j + 1), coeff (k + 1) f * coeff (j + 1 - (k + 1)) g := by
        rw [List.range'_eq_map_range, List.map_map, ← List.sum_toFinset _ List.nodup_range, List.toFinset_range, Finset.mul_sum]
        push_cast
        refine Finset.sum_congr rfl fun k hk => ?_
        rw [Finset.mem_range] at hk
        simp only [Function.comp]
        rw [← hD (k + 1) (by omega)]
        push_cast
        rw [show j + 1 - (1 + k) = j - k by omega, h.q (j - k) (by omega), show 1 + k - 1 = k by omega, Nat.add_comm 1 k]
        have : (D 0 : ℚ) ^ (j + 1) = (D 0 : ℚ) ^ (j - k + 1) * (D 0 : ℚ) ^ k := by rw [← pow_add]; congr 1; omega
        rw [this]
        ring
      rw [Int.cast_sub, hr]
      rw [← hN (j + 1) (by omega), ← hD 0 (by omega)] at hc
      have h0 : ∑ k ∈ Finset.range (j + 1), coeff (k + 1) f * coeff (j + 1 - (k + 1)) g =
          (N (j + 1) : ℚ) - (D 0 : ℚ) * coeff (j + 1 - 0) g := by rw [← hc]; ring
      rw [h0, Nat.sub_zero]
      push_cast
      ring
    · rw [Function.update_of_ne (by omega), h.q i h3]
  · rw [hne 0 (by omega), h.D0]
  · intro i hi
    rw [hne i (by omega), h.rest i (by omega)]

/-- **Exactness of the scaled division.** -/
theorem divide_eq (d : ℕ) (N D : Arr) (f n g : PowerSeries ℚ) (hD : Agrees d D f) (hN : Agrees d N n) (hg : f * g = n) :
    (divide d N D).1 = D 0 ^ (d + 1) ∧ ((divide d N D).2 : ℚ) = (D 0 : ℚ) ^ (d + 1) * coeff d g := by
  have key : ∀ j ≤ d, DivInv d N D g j ((List.range' 1 j).foldl (divStep N) ⟨1, fun _ => N 0, D⟩) := by
    intro j
    induction j with
    | zero =>
      intro _
      refine ⟨by simp, fun i hi => ?_, rfl, fun i h1 h2 => by omega, fun i _ => rfl⟩
      have : i = 0 := by omega
      subst this
      have hc := congrArg (coeff 0) hg
      rw [coeff_mul, Finset.Nat.sum_antidiagonal_eq_sum_range_succ_mk] at hc
      simp only [Finset.range_one, Finset.sum_singleton, Nat.sub_self] at hc
      show (N 0 : ℚ) = _
      rw [hN 0 (by omega), ← hc, hD 0 (by omega)]
      ring
    | succ j ih =>
      intro hj
      rw [List.range'_concat, List.foldl_append]
      simp only [List.foldl_cons, List.foldl_nil, one_mul]
      rw [Nat.add_comm 1 j]
      exact divInv_step d N D f n g hD hN hg j (by omega) _ (ih (by omega))
  have h := key d le_rfl
  refine ⟨?_, ?_⟩
  · show _ * _ = _
    rw [h.temp, h.D0, pow_succ]
  · exact h.q d le_rfl

end Verif.PolySubst
