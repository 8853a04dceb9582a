import Verif.Lawrence.Powers
import Verif.Residue.Integral

/-! The residue computation of the Lawrence code returns a coefficient of a power series. -/

namespace Latte.Lawrence

open Latte.Residue PowerSeries

/-- the linear polynomial `a + b ε` as a power series -/
noncomputable def lin (a b : ℚ) : ℚ⟦X⟧ := C a + C b * X

theorem lin_rescale (a b : ℚ) : lin a b = rescale b (X + C a) := by
  unfold lin
  rw [map_add, rescale_X]
  have : rescale b (C a : ℚ⟦X⟧) = C a := by
    ext n
    rw [coeff_rescale, coeff_C]
    split_ifs with h
    · subst h; simp
    · simp
  rw [this]; ring

theorem lin_const (a b : ℚ) : constantCoeff (lin a b) = a := by simp [lin]

theorem lin_pow_coeff (a b : ℚ) (N n : Nat) : coeff n (lin a b ^ N) = (N.choose n : ℚ) * a ^ (N - n) * b ^ n := by
  rw [lin_rescale, ← map_pow, coeff_rescale]
  have := Polynomial.coeff_X_add_C_pow a N n
  rw [← Polynomial.coeff_coe] at this
  simp only [Polynomial.coe_pow, Polynomial.coe_add, Polynomial.coe_X, Polynomial.coe_C] at this
  rw [this]; ring

theorem lin_inv_coeff (a b : ℚ) (ha : a ≠ 0) (s : Nat) (hs : 1 ≤ s) (j : Nat) :
    coeff j ((lin a b ^ s)⁻¹) = (-1) ^ j * ((s + j - 1).choose j : ℚ) * (a⁻¹) ^ (s + j) * b ^ j := by
  have h : (lin a b ^ s)⁻¹ = rescale b (((X + C a : ℚ⟦X⟧) ^ s)⁻¹) := by
    rw [PowerSeries.inv_eq_iff_mul_eq_one (by rw [map_pow, lin_const]; exact pow_ne_zero _ ha), lin_rescale, ← map_pow, ← map_mul,
      PowerSeries.inv_mul_cancel _ (by simp [ha]), map_one]
  rw [h, coeff_rescale, fac_inv a ha s hs]; ring

theorem numSeriesL_spec (Md : Nat) (a b : Int) (p : Nat) (hp : p ≤ Md) (hb : Md < 2 ^ 20) :
    ∃ m1, numSeriesL Md a b p = some m1 ∧ Agree p m1 (lin a b ^ Md) := by
  refine ⟨(List.range (p + 1)).map fun i => (Md.choose i : Int) * a ^ (Md - i) * b ^ i, ?_, ?_⟩
  · apply mapM_some
    intro i hi
    have : i < p + 1 := by simpa using hi
    rw [show (Md : Int) - i = ((Md - i : Nat) : Int) by omega, c27_power_exact a _ (by omega), Option.bind_some,
      c27_power_exact b _ (by omega), Option.map_some, c27_choose_exact]
  · intro n hn
    rw [getD_map_range _ _ _ _ (by omega), lin_pow_coeff]
    push_cast; ring

theorem facSeriesL_spec (a b : Int) (ha : a ≠ 0) (s p : Nat) (hs : 1 ≤ s) (hb : p < 2 ^ 20) :
    ∃ m2, facSeriesL a b s p = some m2 ∧ Agree p m2 (C ((a : ℚ) ^ (s + p)) * (lin a b ^ s)⁻¹) := by
  refine ⟨(List.range (p + 1)).map fun j => (-1) ^ j * ((s + j - 1).choose j : Int) * a ^ (p - j) * b ^ j, ?_, ?_⟩
  · apply mapM_some
    intro j hj
    have : j < p + 1 := by simpa using hj
    rw [show (p : Int) - j = ((p - j : Nat) : Int) by omega, c27_power_exact a _ (by omega), Option.bind_some,
      c27_power_exact b _ (by omega), Option.map_some, aChooseB_mult s j hs]
    congr 1
    split_ifs with h
    · rw [Odd.neg_one_pow (Nat.odd_iff.2 h)]; ring
    · rw [Even.neg_one_pow (Nat.even_iff.2 (by omega))]; ring
  · intro n hn
    have ha' : (a : ℚ) ≠ 0 := by exact_mod_cast ha
    rw [getD_map_range _ _ _ _ (by omega), coeff_C_mul, lin_inv_coeff _ _ ha' s hs]
    push_cast
    have : (a : ℚ) ^ (s + p) * (a : ℚ)⁻¹ ^ (s + n) = (a : ℚ) ^ (p - n) := by
      rw [show s + p = (s + n) + (p - n) by omega, pow_add, mul_assoc, mul_comm ((a : ℚ) ^ (p - n)), ← mul_assoc, ← mul_pow,
        mul_inv_cancel₀ ha', one_pow, one_mul]
    rw [← this]; ring

/-- power series of an entry different from the pole -/
noncomputable def facPS (q : LP) : ℚ⟦X⟧ := if q.power ≤ 0 then 1 else lin q.constant q.epsilon ^ q.power.toNat

theorem inv_one_ps : (1 : ℚ⟦X⟧)⁻¹ = 1 := (PowerSeries.inv_eq_iff_mul_eq_one (by simp)).2 (mul_one 1)

theorem facLoop_spec (p : Nat) (rest : List LP) : ∀ (pr : List Int) (F : ℚ⟦X⟧) (de : Int),
    (∀ q ∈ rest, 1 ≤ q.power → q.constant ≠ 0) → (∀ q ∈ rest, q.power.toNat + p < 2 ^ 20) → de ≠ 0 → Agree p pr F →
    ∃ pr' k de', facLoop p rest pr de = some (pr', de') ∧ de' ≠ 0 ∧ (de' : ℚ) = de * k ∧
      Agree p pr' (C k * F * ((rest.map facPS).prod)⁻¹) := by
  induction rest with
  | nil =>
    intro pr F de _ _ hde h
    exact ⟨pr, 1, de, rfl, hde, by simp, by simpa [inv_one_ps] using h⟩
  | cons q rest ih =>
    intro pr F de h1 h2 hde h
    have h1' : ∀ q ∈ rest, 1 ≤ q.power → q.constant ≠ 0 := fun q hq => h1 q (by simp [hq])
    have h2' : ∀ q ∈ rest, q.power.toNat + p < 2 ^ 20 := fun q hq => h2 q (by simp [hq])
    have hb := h2 q (by simp)
    rw [facLoop]
    split_ifs with hp he
    · obtain ⟨pr', k, de', e1, e2, e3, e4⟩ := ih pr F de h1' h2' hde h
      refine ⟨pr', k, de', e1, e2, e3, ?_⟩
      rw [List.map_cons, List.prod_cons, show facPS q = 1 by unfold facPS; rw [if_pos hp], one_mul]
      exact e4
    · have hc := h1 q (by simp) (by omega)
      have hc' : (q.constant : ℚ) ≠ 0 := by exact_mod_cast hc
      rw [show q.power = (q.power.toNat : Int) by omega, c27_power_exact _ _ (by omega), Option.bind_some]
      obtain ⟨pr', k, de', e1, e2, e3, e4⟩ := ih pr F (de * q.constant ^ q.power.toNat) h1' h2'
        (mul_ne_zero hde (pow_ne_zero _ hc)) h
      refine ⟨pr', (q.constant : ℚ) ^ q.power.toNat * k, de', e1, e2, by rw [e3]; push_cast; ring, ?_⟩
      rw [List.map_cons, List.prod_cons, PowerSeries.mul_inv_rev]
      have e5 : facPS q = C ((q.constant : ℚ) ^ q.power.toNat) := by
        unfold facPS lin
        rw [if_neg hp, he]; simp
      rw [e5]
      have e6 : (C ((q.constant : ℚ) ^ q.power.toNat) : ℚ⟦X⟧) * (C ((q.constant : ℚ) ^ q.power.toNat))⁻¹ = 1 :=
        PowerSeries.mul_inv_cancel _ (by simp [hc'])
      have e7 : C ((q.constant : ℚ) ^ q.power.toNat * k) * F * (((rest.map facPS).prod)⁻¹ * (C ((q.constant : ℚ) ^ q.power.toNat))⁻¹)
          = C k * F * ((rest.map facPS).prod)⁻¹ := by
        rw [map_mul]
        linear_combination (C k * F * ((rest.map facPS).prod)⁻¹) * e6
      rw [e7]; exact e4
    · have hc := h1 q (by simp) (by omega)
      have hs : q.power = (q.power.toNat : Int) := by omega
      obtain ⟨m2, f1, f2⟩ := facSeriesL_spec q.constant q.epsilon hc q.power.toNat p (by omega) (by omega)
      rw [show q.power + (p : Int) = ((q.power.toNat + p : Nat) : Int) by omega, c27_power_exact _ _ (by omega), Option.bind_some]
      rw [← hs] at f1
      rw [f1, Option.bind_some]
      obtain ⟨pr', k, de', e1, e2, e3, e4⟩ := ih _ _ (de * q.constant ^ (q.power.toNat + p)) h1' h2'
        (mul_ne_zero hde (pow_ne_zero _ hc)) (agree_mul h f2)
      refine ⟨pr', (q.constant : ℚ) ^ (q.power.toNat + p) * k, de', e1, e2, by rw [e3]; push_cast; ring, ?_⟩
      rw [List.map_cons, List.prod_cons, PowerSeries.mul_inv_rev]
      have e5 : facPS q = lin q.constant q.epsilon ^ q.power.toNat := by
        unfold facPS; rw [if_neg hp]
      rw [e5]
      convert e4 using 1
      rw [map_mul]; ring

/-- `computeResidueLawrence` returns `[ε^p] (a + bε)^(M+d) / ∏ (a_i + b_i ε)^(s_i)`, divided by the coefficient of the pole. -/
theorem computeResidueLawrence_spec (d M : Nat) (num p0 : LP) (rest : List LP) (hl : (p0 :: rest).length = d)
    (hp0 : 1 ≤ p0.power) (hpe : p0.epsilon ≠ 0) (h1 : ∀ q ∈ rest, 1 ≤ q.power → q.constant ≠ 0)
    (hw : ((p0 :: rest).map mult).sum = d) (hb : M + d < 2 ^ 20) :
    ∃ nu de, computeResidueLawrence d M num (p0 :: rest) = some (nu, de) ∧ de ≠ 0 ∧
      (nu : ℚ) / de = coeff p0.power.toNat (lin num.constant num.epsilon ^ (M + d) * ((rest.map facPS).prod)⁻¹) / p0.epsilon := by
  have hm0 : mult p0 = p0.power.toNat := by unfold mult; rw [if_neg (by omega), if_neg (by omega)]
  have hmle : ∀ q ∈ rest, q.power.toNat ≤ mult q := by
    intro q _; unfold mult; split_ifs <;> omega
  have hsum : ∀ q ∈ rest, mult q ≤ (rest.map mult).sum := fun q hq => List.single_le_sum (by simp) _ (List.mem_map_of_mem hq)
  rw [List.map_cons, List.sum_cons, hm0] at hw
  obtain ⟨m1, e1, a1⟩ := numSeriesL_spec (M + d) num.constant num.epsilon p0.power.toNat (by omega) hb
  obtain ⟨pr, k, de, e2, hde, hk, a2⟩ := facLoop_spec p0.power.toNat rest m1 _ p0.epsilon h1
    (fun q hq => by have := hmle q hq; have := hsum q hq; omega) hpe a1
  refine ⟨pr.getD p0.power.toNat 0, de, ?_, hde, ?_⟩
  · unfold computeResidueLawrence
    simp only
    rw [e1, Option.bind_some, List.take_of_length_le (by simp at hl; omega), e2]
    rfl
  · rw [a2 _ (le_refl _), mul_assoc, coeff_C_mul]
    have hk0 : k ≠ 0 := by
      intro h0; rw [h0, mul_zero] at hk; exact hde (by exact_mod_cast hk)
    rw [hk, mul_comm ((p0.epsilon : Int) : ℚ) k, mul_div_mul_left _ _ hk0]

end Latte.Lawrence
