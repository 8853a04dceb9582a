import Verif.Products.Props
import Verif.Valuation.ConeExample

/-! C80: the hypotheses are met by concrete polytopes and integrands; concrete violations. -/

namespace Verif.Products

open MeasureTheory Set Verif.Trie Verif.Measure Verif.Valuation Latte.RatVec
open scoped Pointwise

/-! ### the hypotheses of the main theorem -/

theorem integral_ne_zero_of_pos {n : ℕ} (K U : Set (Fin n → ℝ)) (hK : IsCompact K) (hU : IsOpen U) (hne : U.Nonempty) (hsub : U ⊆ K)
    (f : (Fin n → ℝ) → ℝ) (hf : Continuous f) (h0 : ∀ x ∈ K, 0 ≤ f x) (h1 : ∀ x ∈ U, f x ≠ 0) : (∫ x in K, f x) ≠ 0 := by
  apply ne_of_gt
  rw [setIntegral_pos_iff_support_of_nonneg_ae]
  · refine lt_of_lt_of_le (hU.measure_pos volume hne) (measure_mono fun x hx => ⟨h1 x hx, hsub hx⟩)
  · rw [Filter.EventuallyLE, ae_restrict_iff' hK.measurableSet]
    exact Filter.Eventually.of_forall h0
  · exact hf.continuousOn.integrableOn_compact hK

/-- `2 (x)² (x + 2y)  + 3 + 1/2 (y)³` -/
def exProducts : List Prod' := [(2, [(2, [1, 0]), (1, [1, 2])]), (3, [(0, [0, 0])]), (1 / 2, [(3, [0, 1])])]

theorem exProducts_usable : ∀ p ∈ exProducts, Usable 2 p := by
  intro p hp
  simp only [exProducts, List.mem_cons, List.not_mem_nil, or_false] at hp
  rcases hp with rfl | rfl | rfl
  · exact Or.inl ⟨by norm_num, by simp, by decide, by decide⟩
  · exact Or.inr ⟨by norm_num, [0, 0], rfl, rfl⟩
  · exact Or.inl ⟨by norm_num, by simp, by decide, by decide⟩

/-- the integral over a dilate of the triangle -/
theorem hull_integral_ne (T : ℕ → VCone → List VCone) (hTT : T = fun _ c => [c]) (f : MvPolynomial (Fin 2) ℚ)
    (h0 : ∀ x : Fin 2 → ℝ, 0 ≤ x 0 → 0 ≤ x 1 → 0 ≤ polyAt f x) (h1 : ∀ x : Fin 2 → ℝ, 0 < x 0 → 0 < x 1 → polyAt f x ≠ 0) :
    NonzeroOnCones T 2 exCones f := by
  intro rs _ ⟨t, ht, hc⟩ c hcm
  rw [hTT, List.mem_singleton] at hcm
  rw [hcm]
  simp only
  rw [hull_eq_smul 2 rs exCones t hc, integral_dilate 2 t ht]
  apply mul_ne_zero (by positivity)
  rw [ex_polytope]
  refine integral_ne_zero_of_pos _ {x | 0 < x 0 ∧ 0 < x 1 ∧ 2 * x 0 + 3 * x 1 < 1} ?_ ?_ ?_ ?_ _
    ((polyAt_continuous f).comp (continuous_const_smul _)) ?_ ?_
  · rw [← ex_polytope]; exact polytope_isCompact 2 exCones
  · have a1 : IsOpen {x : Fin 2 → ℝ | 0 < x 0} := isOpen_lt continuous_const (continuous_apply 0)
    have a2 : IsOpen {x : Fin 2 → ℝ | 0 < x 1} := isOpen_lt continuous_const (continuous_apply 1)
    have a3 : IsOpen {x : Fin 2 → ℝ | 2 * x 0 + 3 * x 1 < 1} := isOpen_lt
      ((continuous_const.mul (continuous_apply 0)).add (continuous_const.mul (continuous_apply 1))) continuous_const
    exact a1.inter (a2.inter a3)
  · refine ⟨fun _ => 1 / 10, ?_⟩
    simp only [mem_ofPred_eq]
    norm_num
  · intro x hx
    simp only [mem_ofPred_eq] at hx ⊢
    exact ⟨hx.1.le, hx.2.1.le, hx.2.2.le⟩
  · intro x hx
    simp only [mem_ofPred_eq] at hx
    apply h0 <;> simp only [Pi.smul_apply, smul_eq_mul] <;> have := hx.1 <;> have := hx.2.1 <;> positivity
  · intro x hx
    simp only [mem_ofPred_eq] at hx
    apply h1 <;> simp only [Pi.smul_apply, smul_eq_mul] <;> have := hx.1 <;> have := hx.2.1 <;> positivity

/-- The theorem applies to the triangle with vertices (0,0), (1/2,0), (0,1/3) and the integrand `2 x² (x + 2y) + 3 + y³/2`. -/
example : (∀ c ∈ exCones, VertexOk 2 c.vertex) ∧ TriangulatesPolytope (fun _ c => [c]) 2 exCones ∧ (∀ p ∈ exProducts, Usable 2 p) ∧
    ∀ p ∈ exProducts, Proper 2 p → NonzeroOnCones (fun _ c => [c]) 2 exCones (productPoly 2 p) := by
  refine ⟨?_, triangulates_simplex 2 _ rfl, exProducts_usable, ?_⟩
  · intro c hc
    simp only [exCones, List.mem_cons, List.not_mem_nil, or_false] at hc
    rcases hc with rfl | rfl | rfl <;>
      exact ⟨rfl, by decide, fun h => by simp [ofEntries] at h, fun h => by simp [ofEntries] at h⟩
  · intro p hp hpp
    simp only [exProducts, List.mem_cons, List.not_mem_nil, or_false] at hp
    rcases hp with rfl | rfl | rfl
    · apply hull_integral_ne _ rfl
      · intro x hx hy
        simp only [productPoly, polyAt, List.map_cons, List.map_nil, List.prod_cons, List.prod_nil, Fin.sum_univ_two, map_mul, map_add, map_pow,
          MvPolynomial.aeval_C, MvPolynomial.aeval_X, Fin.val_zero, Fin.val_one, List.getD_cons_zero, List.getD_cons_succ]
        simp
        positivity
      · intro x hx hy
        simp only [productPoly, polyAt, List.map_cons, List.map_nil, List.prod_cons, List.prod_nil, Fin.sum_univ_two, map_mul, map_add, map_pow,
          MvPolynomial.aeval_C, MvPolynomial.aeval_X, Fin.val_zero, Fin.val_one, List.getD_cons_zero, List.getD_cons_succ]
        simp
        exact ⟨hx.ne', by positivity⟩
    · have := hpp.factor (0, [0, 0]) (by simp)
      omega
    · apply hull_integral_ne _ rfl
      · intro x hx hy
        simp only [productPoly, polyAt, List.map_cons, List.map_nil, List.prod_cons, List.prod_nil, Fin.sum_univ_two, map_mul, map_add, map_pow,
          MvPolynomial.aeval_C, MvPolynomial.aeval_X, Fin.val_zero, Fin.val_one, List.getD_cons_zero, List.getD_cons_succ]
        simp
        positivity
      · intro x hx hy
        simp only [productPoly, polyAt, List.map_cons, List.map_nil, List.prod_cons, List.prod_nil, Fin.sum_univ_two, map_mul, map_add, map_pow,
          MvPolynomial.aeval_C, MvPolynomial.aeval_X, Fin.val_zero, Fin.val_one, List.getD_cons_zero, List.getD_cons_succ]
        simp
        exact hy.ne'

/-! ### violations -/

/-- the program on a list of products, with the engine that returns its argument -/
def runOn (n : ℕ) (cones : List VCone) (ps : List Prod') : Option ℚ :=
  (ps.mapM fun p => loadProduct n p.1 p.2).bind fun ss => (findIntegralProducts (fun _ c => [c]) 30 30 n ss (ofCones n cones)).map Prod.fst

/-- the segments [0, 1] and [-1, 1] -/
def unit : List VCone := [⟨ofEntries [(0, 1)], [], 1⟩, ⟨ofEntries [(1, 1)], [], 1⟩]
def symm : List VCone := [⟨ofEntries [(-1, 1)], [], 1⟩, ⟨ofEntries [(1, 1)], [], 1⟩]

/-- right answers: `∫ x · x² = 1/4`, `∫ 3 = 3`, over [0,1]; `∫ x² = 2/3` over [-1,1]. -/
theorem c80_right : runOn 1 unit [(1, [(1, [1]), (2, [1])])] = some (1 / 4) ∧ runOn 1 unit [(3, [(0, [0])])] = some 3 ∧
    runOn 1 symm [(1, [(2, [1])])] = some (2 / 3) := by decide +kernel

/-- **A repeated factor is not squared**: `x · x` over [0,1] is integrated as `2x`; the answer is 1 instead of 1/3. -/
theorem c80_repeated_factor : runOn 1 unit [(1, [(1, [1]), (1, [1])])] = some 1 := by decide +kernel

/-- **A coefficient zero is forgotten**: `0 · x · x²` over [0,1] is integrated as `x²`. -/
theorem c80_zero_coefficient : runOn 1 unit [(0, [(1, [1]), (2, [1])])] = some (1 / 3) := by decide +kernel

/-- **Constants are added, not multiplied**: `3 · (x)⁰ · (2x)⁰` over [0,1] gives 4 instead of 3. -/
theorem c80_constants_added : runOn 1 unit [(3, [(0, [1]), (0, [2])])] = some 4 := by decide +kernel

/-- **A constant factor next to another factor is refused** (an exception): `3 · (x)⁰ · x`. -/
theorem c80_constant_factor_refused : ((loadProduct 1 3 [(0, [1]), (1, [1])]).bind fun s => (dilateLinearForms 30 30 s 1).map fun l =>
    (l.1.termCount, l.2)) = some (1, 3) ∧ runOn 1 unit [(3, [(0, [1]), (1, [1])])] = none := by decide +kernel

theorem symm_ok : ∀ c ∈ symm, VertexOk 1 c.vertex := by
  intro c hc
  simp only [symm, List.mem_cons, List.not_mem_nil, or_false] at hc
  rcases hc with rfl | rfl <;>
    exact ⟨rfl, by decide, fun h => by simp [ofEntries] at h, fun h => by simp [ofEntries] at h⟩

theorem symm_polytope : polytope 1 symm = {x | -1 ≤ x 0 ∧ x 0 ≤ 1} := by
  rw [polytope_eq_range, convexHull_range]
  ext x
  simp only [mem_ofPred_eq]
  constructor
  · rintro ⟨l, hl, h1, rfl⟩
    have a0 := hl (0 : Fin 2)
    have a1 := hl (1 : Fin 2)
    rw [show (∑ i, l i) = l (0 : Fin 2) + l (1 : Fin 2) from Fin.sum_univ_two l] at h1
    have e : ∀ j : Fin 1, (∑ i : Fin symm.length, l i • pointR 1 symm[i].vertex) j = l (0 : Fin 2) * pointR 1 symm[0].vertex j +
        l (1 : Fin 2) * pointR 1 symm[1].vertex j := by
      intro j
      rw [Finset.sum_apply]
      exact Fin.sum_univ_two (fun i : Fin 2 => l i * pointR 1 symm[i].vertex j)
    rw [e 0]
    simp only [symm, pointR, ofEntries, List.getElem_cons_zero, List.getElem_cons_succ, Fin.val_zero, List.getD_cons_zero]
    push_cast
    refine ⟨?_, ?_⟩ <;> linarith
  · rintro ⟨h0, h1⟩
    refine ⟨(![(1 - x 0) / 2, (1 + x 0) / 2] : Fin 2 → ℝ), ?_, ?_, ?_⟩
    · intro i
      change Fin 2 at i
      fin_cases i <;> simp <;> linarith
    · refine (Fin.sum_univ_two (![(1 - x 0) / 2, (1 + x 0) / 2] : Fin 2 → ℝ)).trans ?_
      simp; ring
    · funext j
      rw [Finset.sum_apply]
      refine Eq.trans ?_ (Fin.sum_univ_two (fun i : Fin 2 => (![(1 - x 0) / 2, (1 + x 0) / 2] : Fin 2 → ℝ) i *
        pointR 1 symm[i].vertex j)).symm
      fin_cases j; simp [symm, pointR, ofEntries]; ring

/-- the integral of `x` over every multiple of [-1,1] is zero -/
theorem symm_zero : ZeroOnCones (fun _ c => [c]) 1 symm (productPoly 1 (1, [(1, [1])])) := by
  intro rs _ ⟨t, ht, hc⟩
  refine ⟨_, List.mem_singleton.2 rfl, ?_, ?_⟩
  · simp only
    rw [hull_eq_smul 1 rs symm t hc]
    apply ne_of_gt
    refine lt_of_lt_of_le ((isOpen_lt (continuous_const (y := (-t : ℝ))) (continuous_apply (0 : Fin 1))).inter
      (isOpen_lt (continuous_apply (0 : Fin 1)) (continuous_const (y := (t : ℝ)))) |>.measure_pos volume ⟨fun _ => 0, ?_⟩) (measure_mono ?_)
    · simp [ht]
    · rintro x ⟨h1, h2⟩
      simp only [mem_ofPred_eq] at h1 h2
      rw [symm_polytope, mem_smul_set]
      refine ⟨t⁻¹ • x, ?_, by rw [smul_smul, mul_inv_cancel₀ ht.ne', one_smul]⟩
      simp only [mem_ofPred_eq, Pi.smul_apply, smul_eq_mul]
      constructor
      · rw [inv_mul_eq_div, le_div_iff₀ ht]; linarith
      · rw [inv_mul_eq_div, div_le_iff₀ ht]; linarith
  · simp only
    rw [hull_eq_smul 1 rs symm t hc, integral_dilate 1 t ht]
    apply mul_eq_zero_of_right
    have hp : ∀ x : Fin 1 → ℝ, polyAt (productPoly 1 (1, [(1, [1])])) x = x 0 := by
      intro x
      simp [productPoly, polyAt]
    simp only [hp, Pi.smul_apply, smul_eq_mul]
    have hneg := Measure.setIntegral_comp_smul (volume : Measure (Fin 1 → ℝ)) (fun x : Fin 1 → ℝ => t * x 0) (polytope 1 symm) (R := (-1 : ℝ)) (by norm_num)
    have hset : (-1 : ℝ) • polytope 1 symm = polytope 1 symm := by
      rw [symm_polytope]
      ext x
      rw [mem_smul_set]
      simp only [mem_ofPred_eq]
      constructor
      · rintro ⟨y, ⟨h1, h2⟩, rfl⟩
        simp only [Pi.smul_apply, smul_eq_mul]
        constructor <;> linarith
      · rintro ⟨h1, h2⟩
        refine ⟨-x, ⟨?_, ?_⟩, by simp⟩ <;> simp only [Pi.neg_apply] <;> linarith
    rw [hset] at hneg
    simp only [Pi.smul_apply, smul_eq_mul, Module.finrank_fin_fun] at hneg
    have h2 : (∫ x in polytope 1 symm, t * (-1 * x 0)) = -∫ x in polytope 1 symm, t * x 0 := by
      rw [← integral_neg]
      congr 1
      funext x
      ring
    rw [h2] at hneg
    norm_num at hneg
    linarith

/-- **An integral zero stops the program**: `∫ x` over [-1,1] is never computed. -/
theorem c80_zero_integral : ∃ (products : List (Sum ℚ)) (N : ℕ), ([((1, [(1, [1])]) : Prod')].mapM fun p => loadProduct 1 p.1 p.2) = some products ∧
    ∀ fuel rounds, N ≤ fuel → N ≤ rounds → findIntegralProducts (fun _ c => [c]) fuel rounds 1 products (ofCones 1 symm) = none := by
  apply c80_zero_aborts _ 1 one_pos symm symm_ok (triangulates_simplex 1 _ rfl)
  · intro p hp
    rw [List.mem_singleton] at hp
    subst hp
    exact Or.inl ⟨by norm_num, by simp, by decide, by decide⟩
  · refine ⟨_, List.mem_singleton.2 rfl, ⟨by norm_num, by simp, by decide, by decide⟩, symm_zero⟩

end Verif.Products
