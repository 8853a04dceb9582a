import Verif.Series.Model
import Mathlib.RingTheory.PowerSeries.Inverse
import Verif.Piped.Props

/-!
# The array loops of `Taylor_Expansion` compute with power series

`Agr d r f` says that the array `r` holds the coefficients of the power series `f` up to degree `d`.
-/

namespace Verif.Series

open PowerSeries
open Verif.PolySubst (Arr)

/-- **Specification.** The array holds the first coefficients of the series. -/
def Agr (d : ℕ) (r : Arr) (f : PowerSeries ℤ) : Prop := ∀ k ≤ d, r k = coeff k f

/-! ### Loops from the highest coefficient down -/

theorem downFold (G : Arr → ℕ → ℤ) (hG : ∀ r r' j, (∀ i ≤ j, r i = r' i) → G r j = G r' j) (n : ℕ) (r : Arr) (k : ℕ) :
    (List.range n).reverse.foldl (fun r j => Function.update r j (G r j)) r k = if k < n then G r k else r k := by
  induction n generalizing r with
  | zero => simp
  | succ n ih =>
    rw [List.range_succ, List.reverse_append, List.reverse_singleton, List.singleton_append, List.foldl_cons, ih]
    rcases lt_trichotomy k n with h | h | h
    · rw [if_pos h, if_pos (by omega)]
      exact hG _ _ _ fun i hi => Function.update_of_ne (by omega) _ _
    · subst h
      rw [if_neg (lt_irrefl _), if_pos (Nat.lt_succ_self _), Function.update_self]
    · rw [if_neg (by omega), if_neg (by omega), Function.update_of_ne (by omega)]

theorem foldl_add (f : ℕ → ℤ) (l : List ℕ) (x : ℤ) : l.foldl (fun x k => x + f k) x = x + (l.map f).sum := by
  induction l generalizing x with
  | nil => simp
  | cons a l ih => rw [List.foldl_cons, ih, List.map_cons, List.sum_cons]; ring

theorem sum_range' (f : ℕ → ℤ) (n : ℕ) : ((List.range' 1 n).map f).sum = ∑ i ∈ Finset.range n, f (i + 1) := by
  induction n with
  | zero => simp
  | succ n ih =>
    rw [List.range'_concat, List.map_append, List.sum_append, ih, Finset.sum_range_succ]
    simp [add_comm]

theorem foldl_congr_mem {α β : Type*} (f g : β → α → β) (l : List α) (h : ∀ a ∈ l, ∀ b, f b a = g b a) (b : β) : l.foldl f b = l.foldl g b := by
  induction l generalizing b with
  | nil => rfl
  | cons a l ih =>
    rw [List.foldl_cons, List.foldl_cons, h a List.mem_cons_self, ih fun a ha => h a (List.mem_cons_of_mem _ ha)]

theorem agr_mul (d : ℕ) (t r : Arr) (f g : PowerSeries ℤ) (hr : Agr d r f) (ht : Agr d t g) : Agr d (mulInPlace d t r) (f * g) := by
  intro k hk
  unfold mulInPlace
  rw [downFold (fun r j => (List.range' 1 j).foldl (fun x k => x + t k * r (j - k)) (r j * t 0)) (by
    intro r r' j h
    rw [h j le_rfl]
    exact foldl_congr_mem _ _ _ (fun a ha b => by rw [h (j - a) (by omega)]) _), if_pos (by omega), foldl_add, sum_range']
  rw [mul_comm f g, coeff_mul, Finset.Nat.sum_antidiagonal_eq_sum_range_succ_mk, Finset.sum_range_succ', hr k hk, ht 0 (Nat.zero_le _)]
  rw [add_comm]
  congr 1
  · exact Finset.sum_congr rfl fun i hi => by
      have := Finset.mem_range.1 hi
      rw [ht (i + 1) (by omega), hr (k - (i + 1)) (by omega)]
  · rw [Nat.sub_zero, mul_comm]

theorem agr_square (d : ℕ) (r : Arr) (f : PowerSeries ℤ) (hr : Agr d r f) : Agr d (squareInPlace d r) (f * f) := by
  intro k hk
  unfold squareInPlace
  rw [downFold (fun r j => if 0 < j then (List.range' 1 (j - 1)).foldl (fun x k => x + r k * r (j - k)) (r j * (2 * r 0)) else r j * r j) (by
    intro r r' j h
    rw [h j le_rfl, h 0 (Nat.zero_le _)]
    split
    · refine foldl_congr_mem _ _ _ (fun a ha b => ?_) _
      have := List.mem_range'_1.1 ha
      rw [h (j - a) (by omega), h a (by omega)]
    · rfl), if_pos (by omega)]
  cases k with
  | zero =>
    rw [if_neg (lt_irrefl _), hr 0 hk, coeff_mul]
    simp
  | succ k =>
    rw [if_pos (Nat.succ_pos _), foldl_add, sum_range', coeff_mul, Finset.Nat.sum_antidiagonal_eq_sum_range_succ_mk, Finset.sum_range_succ',
      Finset.sum_range_succ, hr (k + 1) hk, hr 0 (Nat.zero_le _), Nat.add_sub_cancel]
    have : ∑ i ∈ Finset.range k, r (i + 1) * r (k + 1 - (i + 1)) = ∑ i ∈ Finset.range k, coeff (i + 1) f * coeff (k + 1 - (i + 1)) f :=
      Finset.sum_congr rfl fun i hi => by
        have := Finset.mem_range.1 hi
        rw [hr (i + 1) (by omega), hr (k + 1 - (i + 1)) (by omega)]
    rw [this, Nat.sub_self, Nat.sub_zero]
    ring

theorem agr_pow (d e : ℕ) (he : e ≠ 0) (t : Arr) (f : PowerSeries ℤ) (ht : Agr d t f) : Agr d (powLoop d e t) (f ^ e) := by
  have key : ∀ (n : ℕ) (r : Arr), Agr d r (f ^ (e >>> n)) →
      Agr d ((List.range n).reverse.foldl (fun r b => let r := squareInPlace d r; if e.testBit b then mulInPlace d t r else r) r) (f ^ e) := by
    intro n
    induction n with
    | zero => intro r hr; simpa using hr
    | succ n ih =>
      intro r hr
      rw [List.range_succ, List.reverse_append, List.reverse_singleton, List.singleton_append, List.foldl_cons]
      refine ih _ ?_
      have hs := agr_square d r _ hr
      rw [← pow_add] at hs
      have hdiv : e >>> (n + 1) = (e >>> n) / 2 := Nat.shiftRight_succ _ _
      have hbit : e.testBit n = decide ((e >>> n) % 2 = 1) := by
        rw [Nat.testBit, Nat.and_comm, Nat.and_one_is_mod]
        rcases Nat.mod_two_eq_zero_or_one (e >>> n) with h | h <;> simp [h]
      dsimp only
      rw [hbit]
      by_cases h : (e >>> n) % 2 = 1
      · rw [decide_eq_true h, if_pos rfl]
        have hm := agr_mul d t _ _ f hs ht
        rw [← pow_succ] at hm
        have : e >>> (n + 1) + e >>> (n + 1) + 1 = e >>> n := by omega
        rwa [this] at hm
      · rw [decide_eq_false h, if_neg (by simp)]
        have : e >>> (n + 1) + e >>> (n + 1) = e >>> n := by omega
        rwa [this] at hs
  refine key _ _ ?_
  have : e >>> Nat.log2 e = 1 := by
    rw [Nat.shiftRight_eq_div_pow]
    have h1 : 2 ^ Nat.log2 e ≤ e := Nat.log2_self_le he
    have h2 : e < 2 ^ (Nat.log2 e + 1) := Nat.lt_log2_self
    rw [pow_succ] at h2
    exact Nat.div_eq_of_lt_le (by omega) (by omega)
  rw [this, pow_one]
  exact ht

/-! ### The quotient -/

/-- A series with integer coefficients as a series with rational coefficients. -/
noncomputable def toQ : PowerSeries ℤ →+* PowerSeries ℚ := PowerSeries.map (Int.castRingHom ℚ)

theorem coeff_toQ (k : ℕ) (f : PowerSeries ℤ) : coeff k (toQ f) = ((coeff k f : ℤ) : ℚ) := by simp [toQ]

/-- **Specification.** The value of a quotient: each coefficient is multiplied by `T` and rounded down. -/
noncomputable def divSeries (T : ℤ) (a b : PowerSeries ℤ) : PowerSeries ℤ :=
  PowerSeries.mk fun k => ⌊(T : ℚ) * coeff k (toQ a * (toQ b)⁻¹)⌋

theorem quotInner_eq (b r : Arr) (k : ℕ) : quotInner b r k = (-∑ i ∈ Finset.range k, b (i + 1) * r (k - (i + 1)) * b 0 ^ i, b 0 ^ k) := by
  have key : ∀ n, (List.range' 1 n).foldl (fun (s : ℤ × ℤ) j => (s.1 - b j * r (k - j) * s.2, s.2 * b 0)) (0, 1) =
      (-∑ i ∈ Finset.range n, b (i + 1) * r (k - (i + 1)) * b 0 ^ i, b 0 ^ n) := by
    intro n
    induction n with
    | zero => simp
    | succ n ih =>
      rw [List.range'_concat, List.foldl_append, ih, Finset.sum_range_succ]
      simp only [List.foldl_cons, List.foldl_nil, Nat.one_mul, pow_succ, add_comm 1 n]
      congr 1
      ring
  exact key k

theorem quotNum_spec (d : ℕ) (a b : Arr) (f g q : PowerSeries ℚ) (ha : ∀ k ≤ d, (a k : ℚ) = coeff k f) (hb : ∀ k ≤ d, (b k : ℚ) = coeff k g)
    (hq : g * q = f) : ∀ k ≤ d, (quotNum d a b k : ℚ) = (b 0 : ℚ) ^ (k + 1) * coeff k q := by
  have key : ∀ n ≤ d, ∀ k ≤ n, (((List.range' 1 n).foldl (fun r k => let s := quotInner b r k; Function.update r k (s.1 + s.2 * a k))
      (fun _ => a 0) k : ℤ) : ℚ) = (b 0 : ℚ) ^ (k + 1) * coeff k q := by
    intro n
    induction n with
    | zero =>
      intro _ k hk
      have : k = 0 := by omega
      subst this
      simp only [List.range'_zero, List.foldl_nil]
      rw [ha 0 (Nat.zero_le _), hb 0 (Nat.zero_le _), ← hq, coeff_mul]
      simp
    | succ n ih =>
      intro hn k hk
      have ih := ih (by omega)
      rw [List.range'_concat, List.foldl_append]
      generalize (List.range' 1 n).foldl (fun r k => let s := quotInner b r k; Function.update r k (s.1 + s.2 * a k)) (fun _ => a 0) = r at ih ⊢
      simp only [List.foldl_cons, List.foldl_nil, Nat.one_mul, add_comm 1 n]
      rcases Nat.lt_or_ge k (n + 1) with h | h
      · rw [Function.update_of_ne (by omega)]
        exact ih k (by omega)
      · have : k = n + 1 := by omega
        subst this
        rw [Function.update_self, quotInner_eq]
        have h1 : ∑ i ∈ Finset.range (n + 1), (b (i + 1) : ℚ) * (r (n + 1 - (i + 1)) : ℚ) * (b 0 : ℚ) ^ i =
            (b 0 : ℚ) ^ (n + 1) * ∑ i ∈ Finset.range (n + 1), coeff (i + 1) g * coeff (n + 1 - (i + 1)) q := by
          rw [Finset.mul_sum]
          refine Finset.sum_congr rfl fun i hi => ?_
          have hi := Finset.mem_range.1 hi
          rw [ih (n + 1 - (i + 1)) (by omega), hb (i + 1) (by omega)]
          have : (b 0 : ℚ) ^ (n + 1) = (b 0 : ℚ) ^ (n + 1 - (i + 1) + 1) * (b 0 : ℚ) ^ i := by rw [← pow_add]; congr 1; omega
          rw [this]
          ring
        have h2 : coeff (n + 1) f = coeff 0 g * coeff (n + 1) q + ∑ i ∈ Finset.range (n + 1), coeff (i + 1) g * coeff (n + 1 - (i + 1)) q := by
          rw [← hq, coeff_mul, Finset.Nat.sum_antidiagonal_eq_sum_range_succ_mk, Finset.sum_range_succ', Nat.sub_zero, add_comm]
        rw [Int.cast_add, Int.cast_neg, Int.cast_sum, Int.cast_mul, Int.cast_pow]
        simp only [Int.cast_mul, Int.cast_pow]
        rw [h1, ha (n + 1) hn, h2, ← hb 0 (Nat.zero_le _)]
        ring
  exact key d le_rfl

theorem quotScale_eq (d : ℕ) (T : ℤ) (b r : Arr) (k : ℕ) (hk : k ≤ d) : quotScale d T b r k = (r k * T).fdiv (b 0 ^ (k + 1)) := by
  have key : ∀ n, ((List.range n).foldl (fun (s : Arr × ℤ) k => (Function.update s.1 k ((s.1 k * T).fdiv s.2), s.2 * b 0)) (r, b 0)) =
      (fun k => if k < n then (r k * T).fdiv (b 0 ^ (k + 1)) else r k, b 0 ^ (n + 1)) := by
    intro n
    induction n with
    | zero => simp
    | succ n ih =>
      rw [List.range_succ, List.foldl_append, ih]
      simp only [List.foldl_cons, List.foldl_nil, lt_irrefl, if_false]
      refine Prod.ext ?_ (by ring)
      funext j
      rcases lt_trichotomy j n with h | h | h
      · simp [Function.update_of_ne (show j ≠ n by omega), h, show j < n + 1 by omega]
      · subst h; simp
      · simp [Function.update_of_ne (show j ≠ n by omega), show ¬ j < n by omega, show ¬ j < n + 1 by omega]
  unfold quotScale
  rw [key]
  simp [show k < d + 1 by omega]

theorem agr_div (d : ℕ) (T : ℤ) (a b : Arr) (f g : PowerSeries ℤ) (ha : Agr d a f) (hb : Agr d b g) (h0 : constantCoeff g ≠ 0) :
    Agr d (quotScale d T b (quotNum d a b)) (divSeries T f g) := by
  intro k hk
  have hg0 : constantCoeff (toQ g) ≠ 0 := by
    rw [← coeff_zero_eq_constantCoeff_apply, coeff_toQ, coeff_zero_eq_constantCoeff_apply]
    exact_mod_cast h0
  have hb0 : b 0 ≠ 0 := by
    rw [hb 0 (Nat.zero_le _), coeff_zero_eq_constantCoeff_apply]
    exact h0
  have hn := quotNum_spec d a b (toQ f) (toQ g) (toQ f * (toQ g)⁻¹) (fun k hk => by rw [ha k hk, coeff_toQ]) (fun k hk => by rw [hb k hk, coeff_toQ])
    (by rw [mul_left_comm, PowerSeries.mul_inv_cancel _ hg0, mul_one]) k hk
  rw [quotScale_eq d T b _ k hk, ← Piped.floor_fdiv _ _ (pow_ne_zero _ hb0), divSeries, coeff_mk]
  congr 1
  have hq : (b 0 : ℚ) ^ (k + 1) ≠ 0 := pow_ne_zero _ (by exact_mod_cast hb0)
  push_cast
  rw [hn, div_eq_iff hq]
  ring

end Verif.Series
