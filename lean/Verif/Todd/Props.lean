import Verif.Todd.Model
import Mathlib.RingTheory.PowerSeries.Exp
import Mathlib.RingTheory.PowerSeries.Inverse
import Mathlib.NumberTheory.Bernoulli
import Mathlib.Data.List.GetD
import Mathlib.Tactic.LinearCombination
import Mathlib.Tactic.FieldSimp

/-!
# Taylor expansions (C19)

Specification: a list of rationals *is the Taylor expansion* of a formal power series when its
entries are the first coefficients of the series.
-/

namespace Verif.Todd

open PowerSeries

/-- **Specification.** The entries of `l` are the first `l.length` coefficients of `f`. -/
def IsTaylor (l : List ℚ) (f : PowerSeries ℚ) : Prop :=
  ∀ i (h : i < l.length), l[i] = coeff i f

theorem IsTaylor.getD {l : List ℚ} {f : PowerSeries ℚ} (h : IsTaylor l f) {i : ℕ}
    (hi : i < l.length) : l.getD i 0 = coeff i f := by
  rw [List.getD_eq_getElem _ _ hi, h i hi]

theorem expLoop_length (left i : ℕ) (c : ℚ) : (expLoop left i c).length = left := by
  induction left generalizing i c with
  | zero => rfl
  | succ n ih => simp [expLoop, ih]

theorem expLoop_getElem (left i : ℕ) (k : ℕ) (h : k < (expLoop left i (1 / (i.factorial : ℚ))).length) :
    (expLoop left i (1 / (i.factorial : ℚ)))[k] = 1 / ((i + k).factorial : ℚ) := by
  have key : ∀ i : ℕ, 1 / (i.factorial : ℚ) / ((i + 1 : ℕ) : ℚ) = 1 / ((i + 1).factorial : ℚ) := by
    intro i
    rw [Nat.factorial_succ]
    push_cast
    rw [div_div, mul_comm]
  induction left generalizing i k with
  | zero => simp [expLoop] at h
  | succ n ih =>
    cases k with
    | zero => simp [expLoop]
    | succ k =>
      simp only [expLoop, List.getElem_cons_succ]
      simp only [key]
      rw [ih (i + 1) k]
      congr 2
      ring_nf

/-- **C19, exponential series.** -/
theorem c19_exponential (order : ℕ) :
    (taylorExponential order).length = order + 1 ∧ IsTaylor (taylorExponential order) (exp ℚ) := by
  refine ⟨expLoop_length _ _ _, fun i hi => ?_⟩
  have h := expLoop_getElem (order + 1) 0 i
  simp only [Nat.factorial_zero, Nat.cast_one, div_one, zero_add] at h
  rw [coeff_exp]
  simp only [eq_ratCast, Rat.cast_id]
  exact h hi

theorem recipLoop_length (a : List ℚ) : ∀ n, (recipLoop a n).length = n
  | 0 => rfl
  | 1 => rfl
  | n + 2 => by simp [recipLoop, recipLoop_length a (n + 1)]

theorem recipLoop_taylor (a : List ℚ) (f : PowerSeries ℚ) (ha : IsTaylor a f)
    (h0 : constantCoeff f ≠ 0) : ∀ n ≤ a.length, IsTaylor (recipLoop a n) f⁻¹
  | 0, _ => fun i hi => by simp [recipLoop] at hi
  | 1, hn => fun i hi => by
      simp only [recipLoop, List.length_singleton, Nat.lt_one_iff] at hi
      subst hi
      simp only [recipLoop, List.getElem_cons_zero]
      rw [ha.getD (by omega)]
      simp
  | n + 2, hn => fun i hi => by
      have ih := recipLoop_taylor a f ha h0 (n + 1) (by omega)
      have hl := recipLoop_length a (n + 1)
      rw [recipLoop_length] at hi
      by_cases hin : i < n + 1
      · simp only [recipLoop]
        rw [List.getElem_append_left (by omega)]
        exact ih i (by omega)
      · obtain rfl : i = n + 1 := by omega
        simp only [recipLoop]
        rw [List.getElem_append_right (by omega)]
        simp only [hl, Nat.sub_self, List.getElem_cons_zero]
        have h1 : f * f⁻¹ = 1 := PowerSeries.mul_inv_cancel f h0
        have h2 := congrArg (coeff (n + 1)) h1
        rw [coeff_mul, Finset.Nat.sum_antidiagonal_eq_sum_range_succ_mk, coeff_one,
          if_neg (by omega), Finset.sum_range_succ'] at h2
        have h3 : recipSum a (recipLoop a (n + 1)) (n + 1) =
            ∑ k ∈ Finset.range (n + 1), coeff (k + 1) f * coeff (n + 1 - (k + 1)) f⁻¹ := by
          unfold recipSum
          rw [Finset.range_eq_Ico, Finset.sum_Ico_add' (fun k => coeff k f * coeff (n + 1 - k) f⁻¹) 0 (n + 1) 1]
          refine Finset.sum_congr (by ext; simp [Finset.mem_Icc, Finset.mem_Ico]; try omega) fun j hj => ?_
          rw [Finset.mem_Ico] at hj
          rw [ha.getD (by omega), ih.getD (by omega)]
        rw [← h3] at h2
        rw [ha.getD (by omega)]
        simp only [Nat.sub_zero, coeff_zero_eq_constantCoeff] at h2 ⊢
        field_simp
        linear_combination -h2

/-- **C19, reciprocal.** For a non-empty expansion with non-zero constant coefficient the reciprocal is
computed, to the same order; in all other cases the program divides by zero (or reads `a[0]` of an
empty vector). -/
theorem c19_reciprocal (a : List ℚ) (f : PowerSeries ℚ) (ha : IsTaylor a f) (hne : a ≠ [])
    (h0 : constantCoeff f ≠ 0) :
    ∃ b, taylorReciprocal a = some b ∧ b.length = a.length ∧ IsTaylor b f⁻¹ := by
  have hl : a.length ≠ 0 := by simpa using hne
  refine ⟨recipLoop a a.length, ?_, recipLoop_length _ _, recipLoop_taylor a f ha h0 _ le_rfl⟩
  unfold taylorReciprocal
  rw [if_neg]
  rintro (h | h)
  · exact hl h
  · rw [ha.getD (by omega)] at h
    exact h0 (by simpa using h)

theorem c19_reciprocal_fails (a : List ℚ) :
    taylorReciprocal a = none ↔ a = [] ∨ ∃ r, a = 0 :: r := by
  unfold taylorReciprocal
  cases a with
  | nil => simp
  | cons x r => simp

/-- The Todd series `t/(1 - exp t)`: the power series `T` with `T * (1 - exp) = X`. -/
noncomputable def toddSeries : PowerSeries ℚ := -bernoulliPowerSeries ℚ

theorem toddSeries_spec : toddSeries * (1 - exp ℚ) = X := by
  have := bernoulliPowerSeries_mul_exp_sub_one ℚ
  unfold toddSeries
  linear_combination this

theorem toddSeries_unique (T : PowerSeries ℚ) (h : T * (1 - exp ℚ) = X) : T = toddSeries := by
  have h1 : (1 : PowerSeries ℚ) - exp ℚ ≠ 0 := by
    intro h0
    rw [h0, mul_zero] at h
    exact X_ne_zero h.symm
  exact mul_right_cancel₀ h1 (h.trans toddSeries_spec.symm)

/-- **C19, Todd factor.** The expansion of `t/(1 - exp t)`. -/
theorem c19_todd_factor (order : ℕ) :
    ∃ l, taylorForTodd order = some l ∧ l.length = order + 1 ∧
      ∀ T : PowerSeries ℚ, T * (1 - exp ℚ) = X → IsTaylor l T := by
  let g : PowerSeries ℚ := PowerSeries.mk fun i => -1 / ((i + 1).factorial : ℚ)
  have hg : X * g = 1 - exp ℚ := by
    ext i
    cases i with
    | zero => simp
    | succ i =>
      rw [mul_comm, coeff_succ_mul_X]
      simp [g, coeff_exp, coeff_one, div_eq_mul_inv]
  have hg0 : constantCoeff g ≠ 0 := by
    simp [g]
  obtain ⟨hl, he⟩ := c19_exponential (order + 2)
  have ha : IsTaylor ((List.range (order + 1)).map fun i =>
      -(taylorExponential (order + 2)).getD (i + 1) 0) g := by
    intro i hi
    simp only [List.length_map, List.length_range] at hi
    simp only [List.getElem_map, List.getElem_range]
    rw [he.getD (by omega)]
    simp [g, coeff_exp, div_eq_mul_inv]
  obtain ⟨b, h1, h2, h3⟩ := c19_reciprocal _ g ha (by simp) hg0
  refine ⟨b, h1, by simpa using h2, fun T hT => ?_⟩
  have : T = g⁻¹ := by
    rw [PowerSeries.eq_inv_iff_mul_eq_one hg0]
    apply mul_left_cancel₀ (X_ne_zero (R := ℚ))
    rw [← hg] at hT
    linear_combination hT
  rw [this]
  exact h3

/-- The coefficients are the Bernoulli numbers: entry `i` is `-Bᵢ/i!` (with `B₁ = -1/2`). -/
theorem c19_todd_bernoulli (order : ℕ) {l : List ℚ} (h : taylorForTodd order = some l)
    (i : ℕ) (hi : i ≤ order) : l[i]? = some (-(bernoulli i / (i.factorial : ℚ))) := by
  obtain ⟨l', h1, h2, h3⟩ := c19_todd_factor order
  rw [h] at h1
  cases h1
  rw [List.getElem?_eq_getElem (by omega), h3 _ toddSeries_spec i]
  simp [toddSeries, bernoulliPowerSeries]

theorem productAux_length (a b : List ℚ) :
    (taylorProductAux a b).length = min a.length b.length := by
  simp [taylorProductAux]

theorem productAux_taylor (a b : List ℚ) (f g : PowerSeries ℚ) (ha : IsTaylor a f)
    (hb : IsTaylor b g) : IsTaylor (taylorProductAux a b) (f * g) := by
  intro i hi
  rw [productAux_length] at hi
  simp only [taylorProductAux, List.getElem_map, List.getElem_range]
  rw [coeff_mul, Finset.Nat.sum_antidiagonal_eq_sum_range_succ_mk]
  refine Finset.sum_congr rfl fun j hj => ?_
  rw [Finset.mem_range] at hj
  rw [ha.getD (by omega), hb.getD (by omega)]

/-- **C19, product.** If all expansions have length `n`, the product has length `n` and expands the
product of the series; the empty product is the expansion of `1` to order 0. -/
theorem c19_product (n : ℕ) (as : List (List ℚ × PowerSeries ℚ)) (hne : as ≠ [])
    (hlen : ∀ a ∈ as, a.1.length = n) (has : ∀ a ∈ as, IsTaylor a.1 a.2) :
    (taylorProduct (as.map Prod.fst)).length = n ∧
    IsTaylor (taylorProduct (as.map Prod.fst)) (as.map Prod.snd).prod := by
  cases as with
  | nil => exact absurd rfl hne
  | cons p ps =>
    simp only [List.map_cons, taylorProduct, List.prod_cons]
    have hp := has p (by simp)
    have hpl := hlen p (by simp)
    have hps : ∀ q ∈ ps, IsTaylor q.1 q.2 ∧ q.1.length = n := fun q hq =>
      ⟨has q (by simp [hq]), hlen q (by simp [hq])⟩
    clear has hlen hne
    obtain ⟨a, f⟩ := p
    simp only at hp hpl ⊢
    induction ps generalizing a f with
    | nil => simpa using ⟨hpl, hp⟩
    | cons q qs ih =>
      simp only [List.map_cons, List.foldl_cons, List.prod_cons]
      have hq := hps q (by simp)
      have := ih (fun r hr => hps r (by simp [hr])) (taylorProductAux a q.1) (f * q.2)
        (productAux_taylor _ _ _ _ hp hq.1) (by rw [productAux_length, hpl, hq.2, min_self])
      rwa [mul_assoc] at this

theorem c19_product_nil : IsTaylor (taylorProduct []) 1 := by
  intro i hi
  simp only [taylorProduct, List.length_singleton, Nat.lt_one_iff] at hi
  subst hi
  simp [taylorProduct]

theorem scaleLoop_length (x : ℤ) (l : List ℚ) (c : ℤ) : (scaleLoop x l c).length = l.length := by
  induction l generalizing c with
  | nil => rfl
  | cons s r ih => simp [scaleLoop, ih]

theorem scaleLoop_getElem (x : ℤ) (l : List ℚ) (c : ℤ) (i : ℕ) (h : i < (scaleLoop x l c).length)
    (h' : i < l.length) : (scaleLoop x l c)[i] = (c : ℚ) * (x : ℚ) ^ i * l[i] := by
  induction l generalizing c i with
  | nil => simp at h'
  | cons s r ih =>
    cases i with
    | zero => simp [scaleLoop]
    | succ i =>
      simp only [scaleLoop, List.getElem_cons_succ]
      rw [ih]
      · push_cast; ring
      · simpa using h'

/-- **C19, Todd polynomials.** For integers `x₁,…,xₙ` the entries of the result are the coefficients
`t^0,…,t^n` of `∏ xᵢt/(1 - exp(xᵢt))`: the product of the Todd series with `t` replaced by `xᵢ·t`
(`rescale`). -/
theorem c19_evaluate_todd (x : List ℤ) (T : PowerSeries ℚ) (hT : T * (1 - exp ℚ) = X) :
    ∃ l, evaluateTodd x = some l ∧ l.length = x.length + 1 ∧
      IsTaylor l (x.map fun xi : ℤ => rescale (xi : ℚ) T).prod := by
  obtain ⟨f, h1, h2, h3⟩ := c19_todd_factor x.length
  have h3 := h3 T hT
  unfold evaluateTodd
  simp only [h1]
  refine ⟨_, rfl, ?_⟩
  by_cases hx : x = []
  · subst hx
    exact ⟨rfl, c19_product_nil⟩
  · have := c19_product (x.length + 1)
      (x.map fun xi : ℤ => (scaleLoop xi f 1, rescale (xi : ℚ) T)) (by simpa using hx)
      (by
        intro a ha
        obtain ⟨xi, -, rfl⟩ := List.mem_map.mp ha
        simp only [scaleLoop_length, h2])
      (by
        intro a ha
        obtain ⟨xi, -, rfl⟩ := List.mem_map.mp ha
        intro i hi
        simp only at hi ⊢
        rw [scaleLoop_length] at hi
        rw [scaleLoop_getElem _ _ _ _ _ hi, coeff_rescale, h3 i hi]
        simp)
    simpa [List.map_map, Function.comp_def] using this

/-- Non-vacuity: the Todd polynomials of `(2, -3)`, as the program computes them:
`2t/(1-e^{2t}) · (-3t)/(1-e^{-3t}) = 1 + t/2 - 5/12 t² + …`. -/
example : evaluateTodd [2, -3] = some [1, 1 / 2, -5 / 12] := by decide +kernel

example : taylorForTodd 4 = some [-1, 1 / 2, -1 / 12, 0, 1 / 720] := by decide +kernel

end Verif.Todd
