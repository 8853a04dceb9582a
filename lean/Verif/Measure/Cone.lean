import Verif.Measure.Simplex
import Mathlib.MeasureTheory.Integral.Pi
import Mathlib.Analysis.SpecialFunctions.ImproperIntegrals
import Mathlib.MeasureTheory.Integral.ExpDecay
import Mathlib.LinearAlgebra.Lagrange

/-! Integrals of exponentials over simplicial cones, and the partial fraction form of the complete homogeneous symmetric polynomials. -/

namespace Verif.Measure

open MeasureTheory Set

/-- the cone spanned by `r 0, ..., r (n-1)` -/
def scone (n : ℕ) (r : Fin n → Fin n → ℝ) : Set (Fin n → ℝ) := {x | ∃ l : Fin n → ℝ, (∀ i, 0 ≤ l i) ∧ x = ∑ i, l i • r i}

/-- scalar product -/
def ip {n : ℕ} (l x : Fin n → ℝ) : ℝ := ∑ i, l i * x i

/-- the matrix with columns `r` -/
def colMat (n : ℕ) (r : Fin n → Fin n → ℝ) : Matrix (Fin n) (Fin n) ℝ := Matrix.of fun i j => r j i

theorem colMat_mulVec (n : ℕ) (r : Fin n → Fin n → ℝ) (l : Fin n → ℝ) : (colMat n r).mulVec l = ∑ i, l i • r i := by
  funext a
  simp [colMat, Matrix.mulVec, dotProduct, Finset.sum_apply, mul_comm]

theorem ip_sum {n : ℕ} {κ : Type} (s : Finset κ) (l : Fin n → ℝ) (c : κ → ℝ) (r : κ → Fin n → ℝ) :
    ip l (∑ i ∈ s, c i • r i) = ∑ i ∈ s, c i * ip l (r i) := by
  unfold ip
  simp only [Finset.sum_apply, Pi.smul_apply, smul_eq_mul, Finset.mul_sum]
  rw [Finset.sum_comm]
  apply Finset.sum_congr rfl; intro i _; apply Finset.sum_congr rfl; intro j _; ring

theorem ip_add {n : ℕ} (l x y : Fin n → ℝ) : ip l (x + y) = ip l x + ip l y := by
  simp [ip, mul_add, Finset.sum_add_distrib]

theorem ip_sub {n : ℕ} (l x y : Fin n → ℝ) : ip l (x - y) = ip l x - ip l y := by
  simp [ip, mul_sub, Finset.sum_sub_distrib]

theorem ip_smul {n : ℕ} (l x : Fin n → ℝ) (t : ℝ) : ip l (t • x) = t * ip l x := by
  simp only [ip, Finset.mul_sum, Pi.smul_apply, smul_eq_mul]
  apply Finset.sum_congr rfl; intro i _; ring

theorem ip_add_left {n : ℕ} (l m x : Fin n → ℝ) : ip (l + m) x = ip l x + ip m x := by
  simp [ip, add_mul, Finset.sum_add_distrib]

theorem ip_smul_left {n : ℕ} (l x : Fin n → ℝ) (t : ℝ) : ip (t • l) x = t * ip l x := by
  simp only [ip, Finset.mul_sum, Pi.smul_apply, smul_eq_mul]
  apply Finset.sum_congr rfl; intro i _; ring

theorem ip_zero {n : ℕ} (l : Fin n → ℝ) : ip l 0 = 0 := by simp [ip]

theorem ip_continuous {n : ℕ} (l : Fin n → ℝ) : Continuous (ip l) := by unfold ip; fun_prop

theorem scone_eq_image (n : ℕ) (r : Fin n → Fin n → ℝ) : scone n r = (fun x => (colMat n r).mulVec x) '' {x | ∀ i, 0 ≤ x i} := by
  ext x
  simp only [scone, mem_ofPred_eq, mem_image, colMat_mulVec]
  constructor
  · rintro ⟨l, h, rfl⟩; exact ⟨l, h, rfl⟩
  · rintro ⟨l, h, rfl⟩; exact ⟨l, h, rfl⟩

theorem orthant_closed (n : ℕ) : IsClosed {x : Fin n → ℝ | ∀ i, 0 ≤ x i} := by
  rw [show {x : Fin n → ℝ | ∀ i, 0 ≤ x i} = ⋂ i, {x | 0 ≤ x i} by ext; simp]
  exact isClosed_iInter fun i => isClosed_le continuous_const (continuous_apply i)

/-- the exponential over the orthant -/
theorem integral_orthant (n : ℕ) (c : Fin n → ℝ) (hc : ∀ i, c i < 0) :
    IntegrableOn (fun x : Fin n → ℝ => Real.exp (∑ i, x i * c i)) {x | ∀ i, 0 ≤ x i} ∧
    ∫ x in {x : Fin n → ℝ | ∀ i, 0 ≤ x i}, Real.exp (∑ i, x i * c i) = ∏ i, (1 / -c i) := by
  have hset := (orthant_closed n).measurableSet
  have hfun : indicator {x : Fin n → ℝ | ∀ i, 0 ≤ x i} (fun x : Fin n → ℝ => Real.exp (∑ i, x i * c i)) =
      fun x => ∏ i, (indicator (Ici (0:ℝ)) (fun t => Real.exp (c i * t))) (x i) := by
    funext x
    by_cases hx : ∀ i, 0 ≤ x i
    · rw [indicator_of_mem (by exact hx), Real.exp_sum]
      apply Finset.prod_congr rfl
      intro i _
      rw [indicator_of_mem (by exact hx i), mul_comm]
    · rw [indicator_of_notMem (by exact hx)]
      push Not at hx
      obtain ⟨i, hi⟩ := hx
      rw [Finset.prod_eq_zero (Finset.mem_univ i)]
      rw [indicator_of_notMem]
      simpa using hi
  have hone : ∀ i, Integrable (indicator (Ici (0:ℝ)) (fun t => Real.exp (c i * t))) := by
    intro i
    rw [integrable_indicator_iff measurableSet_Ici, integrableOn_Ici_iff_integrableOn_Ioi]
    have := exp_neg_integrableOn_Ioi 0 (b := -c i) (by linarith [hc i])
    simpa using this
  constructor
  · rw [← integrable_indicator_iff hset, hfun]
    exact Integrable.fintype_prod hone
  · rw [← integral_indicator hset, hfun, integral_fintype_prod_volume_eq_prod]
    apply Finset.prod_congr rfl
    intro i _
    rw [integral_indicator measurableSet_Ici, integral_Ici_eq_integral_Ioi, integral_exp_mul_Ioi (hc i)]
    simp [div_eq_mul_inv, inv_neg]

/-- cones over dependent vectors are null sets -/
theorem scone_null (n : ℕ) (r : Fin n → Fin n → ℝ) (h : (colMat n r).det = 0) : volume (scone n r) = 0 := by
  rw [scone_eq_image]
  have : (fun x => (colMat n r).mulVec x) '' {x | ∀ i, 0 ≤ x i} = (Matrix.toLin' (colMat n r)) '' {x | ∀ i, 0 ≤ x i} := rfl
  rw [this, Measure.addHaar_image_linearMap, LinearMap.det_toLin', h]
  simp

theorem scone_measurable (n : ℕ) (r : Fin n → Fin n → ℝ) : NullMeasurableSet (scone n r) := by
  by_cases h : (colMat n r).det = 0
  · exact NullMeasurableSet.of_null (scone_null n r h)
  · rw [scone_eq_image]
    have hu : IsUnit (colMat n r) := (Matrix.isUnit_iff_isUnit_det _).2 (isUnit_iff_ne_zero.2 h)
    have hinj : Function.Injective (colMat n r).mulVec := Matrix.mulVec_injective_of_isUnit hu
    have hme : MeasurableEmbedding (colMat n r).mulVec := by
      have hc : Continuous (colMat n r).mulVec := LinearMap.continuous_of_finiteDimensional (Matrix.toLin' (colMat n r))
      exact hc.measurableEmbedding hinj
    exact (hme.measurableSet_image.2 (orthant_closed n).measurableSet).nullMeasurableSet

/-- **The integral of an exponential over a simplicial cone.** -/
theorem integral_scone (n : ℕ) (r : Fin n → Fin n → ℝ) (l : Fin n → ℝ) (h : ∀ i, ip l (r i) < 0) :
    IntegrableOn (fun x => Real.exp (ip l x)) (scone n r) ∧
    ∫ x in scone n r, Real.exp (ip l x) = |(colMat n r).det| / ∏ i, (-ip l (r i)) := by
  by_cases hdet : (colMat n r).det = 0
  · rw [hdet, abs_zero, zero_div]
    have h0 := scone_null n r hdet
    exact ⟨by rw [IntegrableOn, Measure.restrict_eq_zero.2 h0]; exact integrable_zero_measure, setIntegral_measure_zero _ h0⟩
  · rw [scone_eq_image]
    let A : (Fin n → ℝ) →L[ℝ] (Fin n → ℝ) := LinearMap.toContinuousLinearMap (Matrix.toLin' (colMat n r))
    have hdA : A.det = (colMat n r).det := by
      show LinearMap.det _ = _
      exact LinearMap.det_toLin' _
    have hinj : InjOn (fun x => (colMat n r).mulVec x) {x | ∀ i, 0 ≤ x i} := by
      intro x _ z _ h
      have hu : IsUnit (colMat n r) := (Matrix.isUnit_iff_isUnit_det _).2 (isUnit_iff_ne_zero.2 hdet)
      exact Matrix.mulVec_injective_of_isUnit hu h
    have hder : ∀ x ∈ {x : Fin n → ℝ | ∀ i, 0 ≤ x i}, HasFDerivWithinAt (fun x => (colMat n r).mulVec x) A {x | ∀ i, 0 ≤ x i} x :=
      fun x _ => (A.hasFDerivAt (x := x)).hasFDerivWithinAt
    have hm := (orthant_closed n).measurableSet
    obtain ⟨o1, o2⟩ := integral_orthant n (fun i => ip l (r i)) h
    have hfun : ∀ x : Fin n → ℝ, ip l ((colMat n r).mulVec x) = ∑ i, x i * ip l (r i) := fun x => by
      rw [colMat_mulVec, ip_sum]
    constructor
    · rw [integrableOn_image_iff_integrableOn_abs_det_fderiv_smul volume hm hder hinj]
      simp only [hfun, hdA]
      exact o1.smul |(colMat n r).det|
    · rw [integral_image_eq_integral_abs_det_fderiv_smul volume hm hder hinj]
      simp only [hfun, hdA, smul_eq_mul]
      rw [integral_const_mul, o2, Finset.prod_div_distrib]
      simp [div_eq_mul_inv]

/-- **Partial fractions**: the complete homogeneous symmetric polynomial at distinct points. -/
theorem hom_partial_fractions (n : ℕ) : ∀ (M : ℕ) (y : Fin (n + 1) → ℝ), Function.Injective y →
    hom (n + 1) M y = ∑ j, y j ^ (M + n) / ∏ i : Fin n, (y j - y (j.succAbove i)) := by
  have hprod : ∀ (m : ℕ) (y : Fin (m + 1) → ℝ) (j : Fin (m + 1)), ∏ i ∈ Finset.univ.erase j, (y j - y i) = ∏ i : Fin m, (y j - y (j.succAbove i)) := by
    intro m y j
    have h1 : (Finset.univ.erase j : Finset (Fin (m + 1))) = Finset.univ.image j.succAbove := by
      ext i
      simp only [Finset.mem_erase, Finset.mem_univ, and_true, Finset.mem_image, true_and]
      constructor
      · intro h; obtain ⟨k, hk⟩ := Fin.exists_succAbove_eq h; exact ⟨k, hk⟩
      · rintro ⟨k, rfl⟩; exact Fin.succAbove_ne _ _
    rw [h1, Finset.prod_image (fun a _ b _ h => Fin.succAbove_right_injective h)]
  have hbase : ∀ (m : ℕ) (y : Fin (m + 1) → ℝ), Function.Injective y → ∑ j, y j ^ m / ∏ i : Fin m, (y j - y (j.succAbove i)) = 1 := by
    intro m y hy
    have := Lagrange.coeff_eq_sum (s := Finset.univ) (v := y) (hy.injOn) (P := Polynomial.X ^ m) (by
      rw [Polynomial.degree_X_pow, Finset.card_fin]; exact_mod_cast Nat.lt_succ_self m)
    rw [Finset.card_fin, Nat.add_sub_cancel, Polynomial.coeff_X_pow, if_pos rfl] at this
    rw [this]
    apply Finset.sum_congr rfl
    intro j _
    rw [hprod, Polynomial.eval_pow, Polynomial.eval_X]
  induction n with
  | zero =>
    intro M y hy
    rw [Fin.sum_univ_one, Finset.univ_eq_empty, Finset.prod_empty, div_one, add_zero]
    induction M with
    | zero => rw [hom_zero_right, pow_zero]
    | succ M ih => rw [hom_succ, hom_zero_left, ih, pow_succ, add_zero, mul_comm]
  | succ n ih =>
    intro M y hy
    induction M with
    | zero => rw [hom_zero_right, Nat.zero_add, hbase (n + 1) y hy]
    | succ M ihM =>
      rw [hom_succ, ihM, ih (M + 1) (fun i => y i.succ) (hy.comp (Fin.succ_injective _)), Finset.mul_sum]
      rw [Fin.sum_univ_succ, Fin.sum_univ_succ (n := n + 1)]
      rw [add_assoc, ← Finset.sum_add_distrib]
      congr 1
      · rw [show M + 1 + (n + 1) = M + (n + 1) + 1 by ring, pow_succ]; ring
      · apply Finset.sum_congr rfl
        intro j _
        have h0 : y j.succ - y 0 ≠ 0 := sub_ne_zero.2 fun h => Fin.succ_ne_zero j (hy h)
        have h1 : ∏ i : Fin n, (y j.succ - y (j.succAbove i).succ) ≠ 0 :=
          Finset.prod_ne_zero_iff.2 fun i _ => sub_ne_zero.2 fun h => Fin.succAbove_ne j i (Fin.succ_injective _ (hy h)).symm
        rw [Fin.prod_univ_succ]
        simp only [Fin.succ_succAbove_zero, Fin.succ_succAbove_succ]
        field_simp
        rw [show M + 1 + n = M + (n + 1) by ring]
        ring

end Verif.Measure
