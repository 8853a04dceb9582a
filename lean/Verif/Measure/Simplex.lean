import Verif.Measure.Dirichlet
import Verif.Residue.Algebra
import Mathlib.Data.Nat.Choose.Multinomial
import Mathlib.Algebra.Order.Antidiag.Pi
import Mathlib.Analysis.Convex.Combination
import Mathlib.Analysis.Convex.Topology
import Mathlib.MeasureTheory.Function.Jacobian
import Mathlib.LinearAlgebra.Matrix.ToLin
import Mathlib.Topology.Algebra.Module.FiniteDimension

/-! Lebesgue integrals of powers of linear forms over simplices (mathematics used in the specifications). -/

namespace Verif.Measure

open MeasureTheory Set

/-- complete homogeneous symmetric polynomial of degree `M` in `y 0, ..., y (k-1)` -/
def hom {R : Type} [CommSemiring R] (k M : ℕ) (y : Fin k → R) : R :=
  ∑ e ∈ Finset.Nat.antidiagonalTuple k M, ∏ i, y i ^ e i

theorem hom_zero_right {R : Type} [CommSemiring R] (k : ℕ) (y : Fin k → R) : hom k 0 y = 1 := by
  simp [hom, Finset.Nat.antidiagonalTuple_zero_right]

theorem hom_zero_left {R : Type} [CommSemiring R] (M : ℕ) (y : Fin 0 → R) : hom 0 (M + 1) y = 0 := by
  simp [hom]

theorem hom_succ {R : Type} [CommSemiring R] (k M : ℕ) (y : Fin (k + 1) → R) :
    hom (k + 1) (M + 1) y = y 0 * hom (k + 1) M y + hom k (M + 1) (fun i => y i.succ) := by
  unfold hom
  rw [← Finset.sum_filter_add_sum_filter_not _ (fun e => e 0 ≠ 0), Finset.mul_sum]
  congr 1
  · refine Finset.sum_nbij' (fun e => Fin.cons (e 0 - 1) (fun i => e i.succ)) (fun e => Fin.cons (e 0 + 1) (fun i => e i.succ)) ?_ ?_ ?_ ?_ ?_
    · intro e he
      simp only [Finset.mem_filter, Finset.Nat.mem_antidiagonalTuple, Fin.sum_univ_succ, Fin.cons_zero, Fin.cons_succ] at he ⊢
      omega
    · intro e he
      simp only [Finset.mem_filter, Finset.Nat.mem_antidiagonalTuple, Fin.sum_univ_succ, Fin.cons_zero, Fin.cons_succ] at he ⊢
      omega
    · intro e he
      simp only [Finset.mem_filter] at he
      funext i
      refine Fin.cases ?_ (fun j => ?_) i
      · simp; omega
      · simp
    · intro e he
      funext i
      refine Fin.cases ?_ (fun j => ?_) i <;> simp
    · intro e he
      simp only [Finset.mem_filter] at he
      simp only [Fin.prod_univ_succ, Fin.cons_zero, Fin.cons_succ]
      obtain ⟨m, hm⟩ := Nat.exists_eq_succ_of_ne_zero he.2
      rw [hm, Nat.succ_sub_one, pow_succ]; ring
  · refine Finset.sum_nbij' (fun e => fun i => e i.succ) (fun e => Fin.cons 0 e) ?_ ?_ ?_ ?_ ?_
    · intro e he
      simp only [Finset.mem_filter, Finset.Nat.mem_antidiagonalTuple, Fin.sum_univ_succ, not_not] at he ⊢
      omega
    · intro e he
      simp only [Finset.mem_filter, Finset.Nat.mem_antidiagonalTuple, Fin.sum_univ_succ, not_not, Fin.cons_zero, Fin.cons_succ] at he ⊢
      simp [he]
    · intro e he
      simp only [Finset.mem_filter, not_not] at he
      funext i
      refine Fin.cases ?_ (fun j => ?_) i
      · simp [he.2]
      · simp
    · intro e he; simp
    · intro e he
      simp only [Finset.mem_filter, not_not] at he
      simp [Fin.prod_univ_succ, he.2]

/-- the recursive sum used in C26 and C48 is the complete homogeneous symmetric polynomial -/
theorem hsum_eq_hom (k : ℕ) : ∀ (M : ℕ) (y : Fin k → ℚ), Latte.Residue.hsum M (List.ofFn y) = hom k M y := by
  induction k with
  | zero =>
    intro M y
    cases M with
    | zero => rw [hom_zero_right, Latte.Residue.hsum]
    | succ M => rw [hom_zero_left, List.ofFn_zero, Latte.Residue.hsum]
  | succ k ih =>
    intro M y
    induction M with
    | zero => rw [hom_zero_right, Latte.Residue.hsum]
    | succ M ihM =>
      rw [hom_succ, ← ihM, ← ih, List.ofFn_succ, Latte.Residue.hsum]

theorem hom_map {R S : Type} [CommSemiring R] [CommSemiring S] (f : R →+* S) (k M : ℕ) (y : Fin k → R) :
    f (hom k M y) = hom k M (fun i => f (y i)) := by
  simp [hom, map_sum, map_prod, map_pow]

/-- integral of a power of a linear form in barycentric coordinates over the corner simplex -/
theorem integral_corner_pow (d M : ℕ) (y : Fin (d + 1) → ℝ) :
    ∫ x in corner d 1, (y 0 * (1 - ∑ i, x i) + ∑ i : Fin d, y i.succ * x i) ^ M =
      (M.factorial : ℝ) / ((M + d).factorial : ℝ) * hom (d + 1) M y := by
  have h1 : ∀ x : Fin d → ℝ, (y 0 * (1 - ∑ i, x i) + ∑ i : Fin d, y i.succ * x i) ^ M =
      ∑ e ∈ Finset.Nat.antidiagonalTuple (d + 1) M, ((Nat.multinomial Finset.univ e : ℝ) * ∏ i, y i ^ e i) *
        ((1 - ∑ i, x i) ^ e 0 * ∏ i : Fin d, x i ^ e i.succ) := by
    intro x
    have h2 : y 0 * (1 - ∑ i, x i) + ∑ i : Fin d, y i.succ * x i =
        ∑ i : Fin (d + 1), y i * (Fin.cons (1 - ∑ i, x i) x : Fin (d + 1) → ℝ) i := by
      simp [Fin.sum_univ_succ]
    rw [h2, Finset.sum_pow_eq_sum_piAntidiag, Finset.piAntidiag_univ_fin_eq_antidiagonalTuple]
    apply Finset.sum_congr rfl
    intro e _
    simp_rw [mul_pow]
    rw [Finset.prod_mul_distrib, ← mul_assoc]
    congr 1
    simp [Fin.prod_univ_succ]
  simp_rw [h1]
  rw [integral_finsetSum]
  · unfold hom
    rw [Finset.mul_sum]
    apply Finset.sum_congr rfl
    intro e he
    rw [integral_const_mul, dirichlet d (e 0) (fun i => e i.succ) 1 zero_le_one, one_pow, mul_one]
    rw [Finset.Nat.mem_antidiagonalTuple] at he
    have hs : e 0 + ∑ i : Fin d, e i.succ = M := by rw [← he, Fin.sum_univ_succ]
    rw [hs]
    have hm : ((e 0).factorial : ℝ) * ((∏ i : Fin d, (e i.succ).factorial : ℕ) : ℝ) * (Nat.multinomial Finset.univ e : ℝ) = (M.factorial : ℝ) := by
      have := Nat.multinomial_spec Finset.univ e
      rw [he, Fin.prod_univ_succ] at this
      rw [← this]; push_cast; ring
    rw [← hm]
    push_cast
    ring
  · intro e _
    apply ContinuousOn.integrableOn_compact (isCompact_corner _ _)
    fun_prop

/-- the edge matrix of a simplex: column `j` is `s (j+1) - s 0` -/
def edgeMat (n : ℕ) (s : Fin (n + 1) → Fin n → ℝ) : Matrix (Fin n) (Fin n) ℝ := Matrix.of fun i j => s j.succ i - s 0 i

theorem convexHull_eq_image (n : ℕ) (s : Fin (n + 1) → Fin n → ℝ) :
    convexHull ℝ (range s) = (fun x => s 0 + (edgeMat n s).mulVec x) '' corner n 1 := by
  have key : ∀ x : Fin n → ℝ, s 0 + (edgeMat n s).mulVec x = (1 - ∑ i, x i) • s 0 + ∑ i : Fin n, x i • s i.succ := by
    intro x
    funext a
    simp only [edgeMat, Pi.add_apply, Matrix.mulVec, dotProduct, Matrix.of_apply, Pi.smul_apply, smul_eq_mul, Finset.sum_apply]
    rw [sub_mul, one_mul, Finset.sum_mul]
    have : ∑ i : Fin n, (s i.succ a - s 0 a) * x i = ∑ i : Fin n, x i * s i.succ a - ∑ i : Fin n, x i * s 0 a := by
      rw [← Finset.sum_sub_distrib]; apply Finset.sum_congr rfl; intro i _; ring
    rw [this]; ring
  have hcorner : Convex ℝ (corner n 1) := by
    intro x hx z hz a b ha hb hab
    refine ⟨fun i => ?_, ?_⟩
    · exact add_nonneg (mul_nonneg ha (hx.1 i)) (mul_nonneg hb (hz.1 i))
    · have : ∑ i, (a • x + b • z) i = a * ∑ i, x i + b * ∑ i, z i := by
        simp [Finset.sum_add_distrib, Finset.mul_sum]
      rw [this]
      nlinarith [hx.2, hz.2]
  apply Subset.antisymm
  · apply convexHull_min
    · rintro _ ⟨j, rfl⟩
      refine Fin.cases ?_ (fun i => ?_) j
      · exact ⟨0, ⟨by simp, by simp⟩, by simp⟩
      · refine ⟨Pi.single i 1, ⟨fun k => ?_, by simp⟩, ?_⟩
        · by_cases h : k = i
          · subst h; simp
          · simp [h]
        · simp only [key]
          simp [Pi.single_apply]
    · rintro _ ⟨x, hx, rfl⟩ _ ⟨z, hz, rfl⟩ a b ha hb hab
      refine ⟨a • x + b • z, hcorner hx hz ha hb hab, ?_⟩
      simp only [Matrix.mulVec_add, Matrix.mulVec_smul, smul_add]
      have : s 0 = a • s 0 + b • s 0 := by rw [← add_smul, hab, one_smul]
      conv_lhs => rw [this]
      abel
  · rintro _ ⟨x, hx, rfl⟩
    simp only [key]
    have h0 : ∀ i, s i ∈ convexHull ℝ (range s) := fun i => subset_convexHull ℝ _ ⟨i, rfl⟩
    have := (convex_convexHull ℝ (range s)).sum_mem (t := Finset.univ)
      (w := (Fin.cons (1 - ∑ i, x i) x : Fin (n + 1) → ℝ)) (z := s) (by
        intro i _
        refine Fin.cases ?_ (fun k => ?_) i
        · simpa using hx.2
        · simpa using hx.1 k) (by simp [Fin.sum_univ_succ]) (fun i _ => h0 i)
    simpa [Fin.sum_univ_succ] using this

/-- change of variables to the corner simplex -/
theorem integral_simplex (n : ℕ) (s : Fin (n + 1) → Fin n → ℝ) (g : (Fin n → ℝ) → ℝ) :
    ∫ p in convexHull ℝ (range s), g p = |(edgeMat n s).det| * ∫ x in corner n 1, g (s 0 + (edgeMat n s).mulVec x) := by
  rw [convexHull_eq_image]
  by_cases hdet : (edgeMat n s).det = 0
  · rw [hdet, abs_zero, zero_mul]
    have hz : volume ((fun x => s 0 + (edgeMat n s).mulVec x) '' corner n 1) = 0 := by
      have : (fun x => s 0 + (edgeMat n s).mulVec x) '' corner n 1 = (fun x => s 0 + x) '' ((Matrix.toLin' (edgeMat n s)) '' corner n 1) := by
        rw [image_image]; rfl
      rw [this, image_add_left, measure_preimage_add, Measure.addHaar_image_linearMap, LinearMap.det_toLin', hdet]
      simp
    exact setIntegral_measure_zero _ hz
  · let A : (Fin n → ℝ) →L[ℝ] (Fin n → ℝ) := LinearMap.toContinuousLinearMap (Matrix.toLin' (edgeMat n s))
    have hA : ∀ x, A x = (edgeMat n s).mulVec x := fun x => rfl
    have hdA : A.det = (edgeMat n s).det := by
      show LinearMap.det _ = _
      exact LinearMap.det_toLin' _
    have := integral_image_eq_integral_abs_det_fderiv_smul (μ := volume) (f := fun x => s 0 + (edgeMat n s).mulVec x) (f' := fun _ => A)
      (isClosed_corner n 1).measurableSet (fun x _ => ((A.hasFDerivAt (x := x)).const_add (s 0)).hasFDerivWithinAt) (by
        intro x _ z _ h
        have h' : (edgeMat n s).mulVec x = (edgeMat n s).mulVec z := by simpa using h
        have hu : IsUnit (edgeMat n s) := (Matrix.isUnit_iff_isUnit_det _).2 (isUnit_iff_ne_zero.2 hdet)
        exact Matrix.mulVec_injective_of_isUnit hu h') g
    rw [this, hdA]
    simp only [smul_eq_mul]
    exact integral_const_mul _ _

/-- **Integral of a power of a linear form over a simplex** (Lebesgue measure on `ℝ^n`). -/
theorem integral_simplex_pow (n M : ℕ) (s : Fin (n + 1) → Fin n → ℝ) (l : Fin n → ℝ) :
    ∫ p in convexHull ℝ (range s), (∑ i, l i * p i) ^ M =
      |(edgeMat n s).det| * ((M.factorial : ℝ) / ((M + n).factorial : ℝ) * hom (n + 1) M (fun j => ∑ i, l i * s j i)) := by
  rw [integral_simplex, ← integral_corner_pow]
  congr 2
  funext x
  congr 1
  simp only [Pi.add_apply, Matrix.mulVec, dotProduct, edgeMat, Matrix.of_apply, mul_add, Finset.sum_add_distrib, mul_sub, Finset.mul_sum, Finset.sum_mul, mul_one]
  rw [Finset.sum_comm]
  rw [add_comm_sub]
  rw [add_right_inj, ← Finset.sum_sub_distrib]
  apply Finset.sum_congr rfl
  intro j _
  rw [← Finset.sum_sub_distrib]
  apply Finset.sum_congr rfl
  intro i _
  ring

/-- volume of a simplex -/
theorem volume_simplex (n : ℕ) (s : Fin (n + 1) → Fin n → ℝ) :
    (volume (convexHull ℝ (range s))).toReal = |(edgeMat n s).det| / (n.factorial : ℝ) := by
  have := integral_simplex_pow n 0 s 0
  simp only [pow_zero, integral_const, smul_eq_mul, mul_one, hom_zero_right, Nat.factorial_zero, Nat.cast_one, zero_add] at this
  rw [measureReal_restrict_apply_univ] at this
  rw [div_eq_mul_one_div, ← this]; rfl

end Verif.Measure
