import Verif.TopK.Lattice
import Mathlib.RingTheory.LaurentSeries

/-!
# Letting the perturbation go to zero

The exponents are `α + β ε`; series in `x` whose coefficients are Laurent series in `ε`. The coefficients of `ε⁰` on both sides of the cone identity.
-/

namespace Verif.TopK

open PowerSeries
open Verif.Barvinok (Mat Vec lineFn)
open Verif.Barvinok.Spec

/-- Power series in `ε`. -/
abbrev Reps := ℚ⟦X⟧

/-- Laurent series in `ε`. -/
abbrev Leps := LaurentSeries ℚ

instance : CharZero Leps := by
  refine ⟨fun a b h => ?_⟩
  have h1 : ((a : ℚ⟦X⟧) : Leps) = ((b : ℚ⟦X⟧) : Leps) := by
    rw [map_natCast, map_natCast]
    exact h
  have h2 := HahnSeries.ofPowerSeries_injective h1
  have h3 := congrArg (constantCoeff (R := ℚ)) h2
  rw [map_natCast, map_natCast] at h3
  exact_mod_cast h3

/-- The inclusion. -/
noncomputable def io : Reps →+* Leps := HahnSeries.ofPowerSeries ℤ ℚ

theorem io_inj : Function.Injective io := HahnSeries.ofPowerSeries_injective

theorem io_C (q : ℚ) : io (C q) = (q : Leps) := by
  have := map_ratCast (io.comp (C : ℚ →+* Reps)) q
  rw [← this, RingHom.comp_apply]
  norm_num

/-- `a + b ε`. -/
noncomputable def lin (a b : ℚ) : Reps := C a + C b * X

theorem lin_ne {a b : ℚ} (h : ¬ (a = 0 ∧ b = 0)) : lin a b ≠ 0 := by
  intro h0
  apply h
  have h1 := congrArg (coeff 0) h0
  have h2 := congrArg (coeff 1) h0
  rw [lin, map_add, map_zero, coeff_C_mul] at h1 h2
  simp [coeff_C, coeff_X] at h1 h2
  exact ⟨h1, h2⟩

theorem constantCoeff_lin (a b : ℚ) : constantCoeff (lin a b) = a := by simp [lin]

/-- `exp(r x)` for a power series `r` in `ε`. -/
noncomputable def exR (r : Reps) : Reps⟦X⟧ := mk fun m => C (1 / (m.factorial : ℚ)) * r ^ m

/-- `∑ B_m (r x)^m / m!`. -/
noncomputable def tdR (r : Reps) : Reps⟦X⟧ := mk fun m => C (bernoulli m / (m.factorial : ℚ)) * r ^ m

/-- Coefficientwise inclusion. -/
noncomputable def ioX : Reps⟦X⟧ →+* Leps⟦X⟧ := PowerSeries.map io

theorem ioX_exR (r : Reps) : ioX (exR r) = ex (io r) := by
  ext1 m
  rw [ioX, coeff_map, exR, coeff_mk, coeff_ex, map_mul, io_C, map_pow]
  push_cast
  ring

theorem ioX_tdR (r : Reps) : ioX (tdR r) = td (io r) := by
  ext1 m
  rw [ioX, coeff_map, tdR, coeff_mk, coeff_td, map_mul, io_C, map_pow]
  push_cast
  ring

/-- `1 / (a + b ε)`, without `ε⁻¹` if `a = 0`. -/
noncomputable def invR (a b : ℚ) : Reps := if a = 0 then C (1 / b) else (lin a b)⁻¹

/-- `x / (1 - exp((a + b ε) x))`, without `ε⁻¹` if `a = 0`. -/
noncomputable def poleR (a b : ℚ) : Reps⟦X⟧ := -(C (invR a b) * tdR (lin a b))

/-- Order of the pole at `ε = 0`. -/
def np (a : ℚ) : ℕ := if a = 0 then 1 else 0

/-- `ε⁻ᵖ`. -/
noncomputable def epsInv (p : ℕ) : Leps := HahnSeries.single (-(p : ℤ)) 1

theorem epsInv_zero : epsInv 0 = 1 := by simp [epsInv]

theorem epsInv_add (p q : ℕ) : epsInv (p + q) = epsInv p * epsInv q := by
  unfold epsInv
  rw [HahnSeries.single_mul_single, mul_one, show -(((p + q : ℕ)) : ℤ) = -(p : ℤ) + -(q : ℤ) by push_cast; ring]

theorem inv_lin (a b : ℚ) (h : ¬ (a = 0 ∧ b = 0)) : 1 / io (lin a b) = epsInv (np a) * io (invR a b) := by
  have hne : io (lin a b) ≠ 0 := fun h0 => lin_ne h (io_inj (by rw [h0, map_zero]))
  rw [div_eq_iff hne, mul_assoc, ← map_mul]
  unfold invR np
  by_cases ha : a = 0
  · have hb : b ≠ 0 := fun hb => h ⟨ha, hb⟩
    rw [if_pos ha, if_pos ha, ha]
    have : C (1 / b) * lin 0 b = (X : Reps) := by
      rw [lin, map_zero, zero_add, ← mul_assoc, ← map_mul, one_div_mul_cancel hb, map_one, one_mul]
    rw [this]
    unfold epsInv io
    rw [HahnSeries.ofPowerSeries_X, HahnSeries.single_mul_single]
    simp
  · rw [if_neg ha, if_neg ha, PowerSeries.inv_mul_cancel _ (by rwa [constantCoeff_lin]), map_one, epsInv_zero, mul_one]

theorem pole_lin (a b : ℚ) (h : ¬ (a = 0 ∧ b = 0)) : pole 1 (io (lin a b)) = C (epsInv (np a)) * ioX (poleR a b) := by
  unfold pole poleR
  rw [if_pos rfl, inv_lin a b h, map_neg, map_mul ioX, ioX_tdR]
  have : ioX (C (invR a b)) = C (io (invR a b)) := by
    unfold ioX; rw [PowerSeries.map_C]
  rw [this, map_mul]
  ring

theorem prod_pole_lin {n : ℕ} (a b : Fin n → ℚ) (h : ∀ i, ¬ (a i = 0 ∧ b i = 0)) :
    ∏ i, pole 1 (io (lin (a i) (b i))) = C (epsInv (∑ i, np (a i))) * ioX (∏ i, poleR (a i) (b i)) := by
  rw [Finset.prod_congr rfl fun i _ => pole_lin (a i) (b i) (h i), Finset.prod_mul_distrib, map_prod]
  congr 1
  rw [← map_prod]
  congr 1
  have : ∀ s : Finset (Fin n), ∏ i ∈ s, epsInv (np (a i)) = epsInv (∑ i ∈ s, np (a i)) := by
    intro s
    induction s using Finset.induction_on with
    | empty => simp [epsInv_zero]
    | insert i s hi ih => rw [Finset.prod_insert hi, Finset.sum_insert hi, epsInv_add, ih]
  exact this _

/-- The coefficient of `ε⁰`. -/
noncomputable def ct : Leps →+ ℚ where
  toFun x := x.coeff 0
  map_zero' := rfl
  map_add' _ _ := rfl

theorem ct_epsInv (p : ℕ) (r : Reps) : ct (epsInv p * io r) = coeff p r := by
  show (HahnSeries.single (-(p : ℤ)) (1 : ℚ) * HahnSeries.ofPowerSeries ℤ ℚ r).coeff 0 = _
  rw [HahnSeries.coeff_single_mul, one_mul, zero_sub, neg_neg]
  exact LaurentSeries.coeff_coe_powerSeries r p

theorem ct_io (r : Reps) : ct (io r) = constantCoeff r := by
  have := ct_epsInv 0 r
  rwa [epsInv_zero, one_mul, coeff_zero_eq_constantCoeff_apply] at this

/-! ## The value at `ε = 0` -/

/-- `ε = 0`. -/
noncomputable def ev0 : Reps⟦X⟧ →+* ℚ⟦X⟧ := PowerSeries.map (constantCoeff (R := ℚ))

theorem ev0_exR (r : Reps) : ev0 (exR r) = ex (constantCoeff r) := by
  ext m
  rw [ev0, coeff_map, exR, coeff_mk, coeff_ex, map_mul, map_pow]
  simp
  ring

theorem ev0_tdR (r : Reps) : ev0 (tdR r) = td (constantCoeff r) := by
  ext m
  rw [ev0, coeff_map, tdR, coeff_mk, coeff_td, map_mul, map_pow]
  simp
  ring

theorem ev0_poleR (a b : ℚ) (ha : a ≠ 0) : ev0 (poleR a b) = pole 1 a := by
  unfold poleR pole invR
  rw [if_neg ha, if_pos rfl, map_neg, map_mul, ev0_tdR, constantCoeff_lin]
  congr 2
  unfold ev0
  rw [PowerSeries.map_C, PowerSeries.constantCoeff_inv, constantCoeff_lin, one_div]

theorem ct_coeff_ioX (S : Reps⟦X⟧) (j : ℕ) : ct (coeff j (ioX S)) = coeff j (ev0 S) := by
  unfold ioX ev0
  rw [coeff_map, coeff_map, ct_io]

theorem io_sum_lin {n : ℕ} (α β : Fin n → ℚ) (y : Fin n → ℤ) :
    ∑ j, io (lin (α j) (β j)) * ((y j : ℤ) : Leps) = io (lin (∑ j, α j * y j) (∑ j, β j * y j)) := by
  have : ∀ j, io (lin (α j) (β j)) * ((y j : ℤ) : Leps) = io (lin (α j * y j) (β j * y j)) := by
    intro j
    have e : ((y j : ℤ) : Leps) = io (C ((y j : ℤ) : ℚ)) := by rw [io_C]; push_cast; rfl
    rw [e, ← map_mul]
    congr 1
    unfold lin
    rw [map_mul, map_mul]
    ring
  rw [Finset.sum_congr rfl fun j _ => this j, ← map_sum]
  congr 1
  unfold lin
  rw [map_sum, map_sum, Finset.sum_add_distrib, Finset.sum_mul]

/-- **The series for one `f`.** The signed sum over the cones of the coefficient of `ε^p x^j`, where `p` is the number of vanishing exponents of the cone. -/
theorem eps_limit {n : ℕ} {ι : Type*} [Fintype ι] [DecidableEq ι] (a : Fin n → ℤ) (ha : ∀ i, a i ≠ 0) (f : ℕ) (hf : 0 < f) (B : Mat n) (s : Fin n → ℤ)
    (hdet : B.det ≠ 0) (hB : ∀ w : Fin n → ℤ, (f : ℤ) ∣ ∑ i, a i * w i ↔ ∃ z, B.mulVec z = w) (hs : (f : ℤ) ∣ (∑ i, a i * s i) - 1) (t : ℤ)
    (eps : ι → ℤ) (G : ι → Mat n) (hG : ∀ u, IsUnit (G u).det) (c : ι → Fin n → ℚ)
    (hc : ∀ u k, ∑ i, c u i * (((B.mulVec (G u i)) k : ℤ) : ℚ) = s k) (gl : (Fin n → ℝ) → ℤ) (hgl : gl ∈ lineFn n)
    (hid : ∀ y, ∑ u, eps u * ind (cone (G u)) y = ind {y | ∀ i, 0 ≤ ∑ k, (B i k : ℝ) * y k} y + gl y)
    (β : Fin n → ℤ) (A E : ι → Fin n → ℤ) (hA : ∀ u i, A u i = ∑ j, a j * B.mulVec (G u i) j) (hE : ∀ u i, E u i = ∑ j, β j * B.mulVec (G u i) j)
    (hη : ∀ u i, ¬ (A u i = 0 ∧ E u i = 0)) (j : ℕ) :
    coeff j ((∑ y ∈ boxPts a f t, ex ((∑ i, a i * y i : ℤ) : ℚ)) * ∏ i, pole 1 ((f : ℚ) * a i)) =
      ∑ u, (eps u : ℚ) * coeff (∑ i, np (A u i)) (coeff j (exR (∑ i, C (Int.fract ((t : ℚ) * c u i)) * lin (A u i) (E u i)) *
        ∏ i, poleR (A u i) (E u i))) := by
  have hfq : (f : ℚ) ≠ 0 := by exact_mod_cast hf.ne'
  have haq : ∀ i, (a i : ℚ) ≠ 0 := fun i => by exact_mod_cast ha i
  have heta : ∀ u i, eta (fun j => io (lin (a j) (β j))) B (G u) i = io (lin (A u i) (E u i)) := by
    intro u i
    unfold eta
    have := io_sum_lin (fun j => (a j : ℚ)) (fun j => (β j : ℚ)) (B.mulVec (G u i))
    rw [this, hA, hE]
    push_cast
    rfl
  have hηq : ∀ u i, ¬ ((A u i : ℚ) = 0 ∧ (E u i : ℚ) = 0) := fun u i h => hη u i ⟨by exact_mod_cast h.1, by exact_mod_cast h.2⟩
  have key := cone_identity (K := Leps) a f hf B s hdet hB hs t eps G hG c hc gl hgl hid (fun j => io (lin (a j) (β j)))
    (fun i h0 => lin_ne (a := (a i : ℚ)) (b := (β i : ℚ)) (fun h => haq i h.1) (io_inj (by rw [h0, map_zero])))
    (fun u i h0 => lin_ne (hηq u i) (io_inj (by rw [← heta, h0, map_zero])))
  simp only [heta] at key
  have h1 := congrArg (fun S => ct (coeff j S)) key
  beta_reduce at h1
  -- left-hand side
  have h2 : (∑ y ∈ boxPts a f t, ex (∑ i, io (lin (a i) (β i)) * ((y i : ℤ) : Leps))) * ∏ i, pole 1 ((f : Leps) * io (lin (a i) (β i))) =
      ioX ((∑ y ∈ boxPts a f t, exR (lin (∑ i, (a i : ℚ) * y i) (∑ i, (β i : ℚ) * y i))) * ∏ i, poleR ((f : ℚ) * a i) ((f : ℚ) * β i)) := by
    rw [map_mul, map_sum]
    congr 1
    · refine Finset.sum_congr rfl fun y _ => ?_
      rw [io_sum_lin (fun j => (a j : ℚ)) (fun j => (β j : ℚ)) y, ioX_exR]
    · have e : ∀ i, (f : Leps) * io (lin (a i) (β i)) = io (lin ((f : ℚ) * a i) ((f : ℚ) * β i)) := by
        intro i
        have e1 : (f : Leps) = io (C (f : ℚ)) := by rw [io_C]; push_cast; rfl
        rw [e1, ← map_mul]
        congr 1
        unfold lin
        rw [map_mul, map_mul]
        ring
      rw [Finset.prod_congr rfl fun i _ => by rw [e i]]
      rw [prod_pole_lin _ _ fun i h => mul_ne_zero hfq (haq i) h.1]
      have : ∑ i, np ((f : ℚ) * a i) = 0 := Finset.sum_eq_zero fun i _ => by
        unfold np; rw [if_neg (mul_ne_zero hfq (haq i))]
      rw [this, epsInv_zero, map_one, one_mul]
  rw [h2, ct_coeff_ioX, map_mul, map_sum, map_prod] at h1
  simp only [ev0_exR, constantCoeff_lin] at h1
  rw [Finset.prod_congr rfl fun i _ => ev0_poleR _ _ (mul_ne_zero hfq (haq i))] at h1
  have h3 : ∀ y : Fin n → ℤ, (∑ i, (a i : ℚ) * (y i : ℚ)) = ((∑ i, a i * y i : ℤ) : ℚ) := fun y => by push_cast; rfl
  simp only [h3] at h1
  rw [h1, map_sum, map_sum]
  refine Finset.sum_congr rfl fun u _ => ?_
  rw [prod_pole_lin _ _ (hηq u)]
  have h4 : ex (∑ i, ((Int.fract ((t : ℚ) * c u i) : ℚ) : Leps) * io (lin (A u i) (E u i))) =
      ioX (exR (∑ i, C (Int.fract ((t : ℚ) * c u i)) * lin (A u i) (E u i))) := by
    rw [ioX_exR, map_sum]
    congr 1
    exact Finset.sum_congr rfl fun i _ => by rw [map_mul, io_C]
  rw [h4, mul_left_comm (ioX _), ← map_mul, coeff_C_mul, coeff_C_mul, ← zsmul_eq_mul, map_zsmul, zsmul_eq_mul]
  congr 1
  unfold ioX
  rw [coeff_map, ct_epsInv]

end Verif.TopK
