import Verif.Whole.IntegralFile
import Verif.Whole.IntegralProducts
import Verif.Whole.VolumeExample

/-!
# C94: examples, and integrals that are never printed
-/

namespace Verif.Whole

open MeasureTheory Verif.Barvinok Verif.Barvinok.Spec Verif.Ti2 Verif.Brion Verif.Files Verif.Preprocess Verif.Valuation Latte.RatVec
open scoped Pointwise
open Verif.Trie (Term insertAll emptySum monoPoly)
open Verif.Products (loadProduct findIntegralProducts productPoly ZeroOnDilate Proper Usable)

variable {n d : ℕ}

theorem integral_one (f : ℝ → ℝ) (a b : ℝ) (hab : a ≤ b) : ∫ x in Set.pi Set.univ fun _ : Fin 1 => Set.Icc a b, f (x 0) = ∫ t in a..b, f t := by
  have h := (volume_preserving_funUnique (Fin 1) ℝ).setIntegral_preimage_emb (MeasurableEquiv.measurableEmbedding _) f (Set.Icc a b)
  rw [intervalIntegral.integral_of_le hab, ← integral_Icc_eq_integral_Ioc, ← h]
  congr 1
  · congr 1
    ext x
    simp only [Set.mem_univ_pi, Set.mem_preimage, Fin.forall_fin_one]
    rfl

/-- The polynomial `3 x² + 1`. -/
def quadratic : List (Term ℚ) := [⟨3, [2], -1⟩, ⟨1, [0], -1⟩]

theorem quadratic_in : PolyIn 1 quadratic := ⟨by decide, by decide, by decide⟩
theorem quadratic_text : monomialsText quadratic = "[[3, [2]], [1, [0]]]\n".toList := by decide +kernel

theorem quadratic_integral : ∫ x in segP.Solutions, monomialsAt quadratic x = 39 / 8 := by
  have e : segP.Solutions = Set.pi Set.univ fun _ : Fin 1 => Set.Icc (0 : ℝ) (3 / 2) := by
    rw [seg_solutions]
    congr 1
    funext k
    fin_cases k
    rfl
  have e2 : ∀ x : Fin 1 → ℝ, monomialsAt quadratic x = (fun t : ℝ => 3 * t ^ 2 + 1) (x 0) := by
    intro x
    simp [monomialsAt, quadratic]
  simp only [e2]
  rw [e, integral_one (fun t => 3 * t ^ 2 + 1) 0 (3 / 2) (by norm_num)]
  rw [intervalIntegral.integral_add ((by fun_prop : Continuous fun t : ℝ => 3 * t ^ 2).intervalIntegrable _ _) (continuous_const.intervalIntegrable _ _), intervalIntegral.integral_const_mul, integral_pow]
  simp
  norm_num

/-- Whatever tools are used and whatever the random numbers are: all three answers printed are `39/8`. -/
example {T : Tools} (hT : T.Ok) (hu : TriangulationUses T) : ∃ N, ∀ (L : IntegralLimits) (garbage : ℕ → ℤ) (hermite : ℕ), N ≤ L.fuel → N ≤ L.rounds → ∀ l,
    integralFile T .monomials .all L garbage hermite (text segP) "[[3, [2]], [1, [0]]]\n".toList = .answers l → l = [39 / 8, 39 / 8, 39 / 8] := by
  obtain ⟨N, hN⟩ := c94_monomials hT hu (by decide) (by decide) segP seg_ok seg_small (by simp [segP]) rfl seg_bounded seg_interior quadratic quadratic_in (by decide)
  refine ⟨N, fun L garbage hermite a b l hl => ?_⟩
  rw [← quadratic_text] at hl
  obtain ⟨h1, h2⟩ := (hN .all L garbage hermite a b).2 l hl
  have h3 : ∀ v ∈ l, v = 39 / 8 := fun v hv => by
    have := h2 v hv
    rw [quadratic_integral] at this
    have e : (v : ℝ) = ((39 / 8 : ℚ) : ℝ) := by rw [this]; norm_num
    exact_mod_cast e
  match l, h1 with
  | [a, b, c], _ => rw [h3 a (by simp), h3 b (by simp), h3 c (by simp)]

/-- There are tools with which `--polynomial-as-plf` prints it. -/
example : ∃ T : Tools, T.Ok ∧ TriangulationUses T ∧ ∃ N, ∀ (L : IntegralLimits) (garbage : ℕ → ℤ) (hermite : ℕ), N ≤ L.fuel → N ≤ L.rounds →
    integralFile T .monomials .polynomialAsPlf L garbage hermite (text segP) "[[3, [2]], [1, [0]]]\n".toList = .answers [39 / 8] := by
  obtain ⟨T, hT, -, htri, -, hu⟩ := tools_satisfiable_uses
  refine ⟨T, hT, hu, ?_⟩
  obtain ⟨v, N, hv, hN⟩ := c94_plf_total hT hu htri (by decide) (by decide) segP seg_ok seg_small (by simp [segP]) rfl seg_bounded seg_interior (by
    intro x hx j
    rw [seg_solutions] at hx
    have := (hx j trivial).1
    fin_cases j
    exact this) quadratic quadratic_in (by decide)
  have e : v = 39 / 8 := by
    rw [quadratic_integral] at hv
    have e : (v : ℝ) = ((39 / 8 : ℚ) : ℝ) := by rw [hv]; norm_num
    exact_mod_cast e
  subst e
  rw [← quadratic_text]
  exact ⟨N, hN⟩

/-- The sum of products `2 x² · (3 x) - 1`. -/
def cubic : List Products.Prod' := [(2, [(2, [1]), (1, [3])]), (-1, [(0, [1])])]

theorem cubic_usable : ∀ p ∈ cubic, Usable 1 p := by
  intro p hp
  simp only [cubic, List.mem_cons, List.not_mem_nil, or_false] at hp
  rcases hp with rfl | rfl
  · exact Or.inl ⟨by norm_num, by simp, by simp, by decide⟩
  · exact Or.inr ⟨by norm_num, [1], rfl, rfl⟩

theorem cubic_text : Products.productsText cubic = "[[2, [[2, [1]], [1, [3]]]], [-1, [[0, [1]]]]]".toList := by decide +kernel

theorem cubic_integral : ∫ x in segP.Solutions, productsAt cubic x = 195 / 32 := by
  have e : segP.Solutions = Set.pi Set.univ fun _ : Fin 1 => Set.Icc (0 : ℝ) (3 / 2) := by
    rw [seg_solutions]
    congr 1
    funext k
    fin_cases k
    rfl
  have e2 : ∀ x : Fin 1 → ℝ, productsAt cubic x = (fun t : ℝ => 6 * t ^ 3 + -1) (x 0) := by
    intro x
    simp [productsAt, cubic]
    ring
  simp only [e2]
  rw [e, integral_one (fun t => 6 * t ^ 3 + -1) 0 (3 / 2) (by norm_num)]
  rw [intervalIntegral.integral_add ((by fun_prop : Continuous fun t : ℝ => 6 * t ^ 3).intervalIntegrable _ _) (continuous_const.intervalIntegrable _ _),
    intervalIntegral.integral_const_mul, integral_pow]
  simp
  norm_num

/-- There are tools with which the integral of the sum of products is printed, whatever follows the first line. -/
example : ∃ T : Tools, T.Ok ∧ TriangulationUses T ∧ ∃ N, ∀ (L : IntegralLimits) (hermite : ℕ) (rest : List Char), N ≤ L.fuel → N ≤ L.rounds →
    productsFile T L hermite (text segP) ("[[2, [[2, [1]], [1, [3]]]], [-1, [[0, [1]]]]]".toList ++ '\n' :: rest) = .answers [195 / 32] := by
  obtain ⟨T, hT, -, htri, -, hu⟩ := tools_satisfiable_uses
  refine ⟨T, hT, hu, ?_⟩
  obtain ⟨v, N, hv, hN⟩ := c94_products_total hT hu htri (by decide) segP seg_ok seg_small (by simp [segP]) rfl seg_bounded seg_interior (by
    intro x hx j
    rw [seg_solutions] at hx
    have := (hx j trivial).1
    fin_cases j
    exact this) cubic (by decide) cubic_usable (by decide)
  have e : v = 195 / 32 := by
    rw [cubic_integral] at hv
    have e : (v : ℝ) = ((195 / 32 : ℚ) : ℝ) := by rw [hv]; norm_num
    exact_mod_cast e
  subst e
  rw [← cubic_text]
  exact ⟨N, hN⟩

/-! ## Integrals that are zero -/

/-- If integrals over simplices are zero, `--polynomial-as-plf` ends in an assertion. -/
theorem plf_zero {E : ℕ → VCone → List VCone} (hn : 0 < n) (vs : List VCone) (hv : ∀ c ∈ vs, VertexOk n c.vertex) (hE : EngineOk E n vs)
    (xs : List (Term ℚ)) (hx : PolyIn n xs) (hz : ∀ t : Term ℚ, (∃ y ∈ xs, t.exps = y.exps) → t.coef ≠ 0 →
      Proper n (monomialProduct n t) ∧ ZeroOnDilate E n vs (productPoly n (monomialProduct n t))) :
    ∃ (poly : Verif.Trie.Sum ℚ) (N : ℕ), insertAll (emptySum ℚ n) xs = some poly ∧
      ∀ fuel rounds, N ≤ fuel → N ≤ rounds → findIntegralPlf E fuel rounds poly (ofCones n vs) = none := by
  obtain ⟨poly, ts, N₁, e, -, hvar, hdr, hts, -, hpoly, hfrom⟩ := drained n hn xs hx
  have hus : ∀ p ∈ ts.map (monomialProduct n), Usable n p := by
    intro p hp
    obtain ⟨t, ht, rfl⟩ := List.mem_map.1 hp
    exact usable_monomialProduct t (hts.mono t ht).1 (hts.mono t ht).2.2.2
  obtain ⟨t, ht⟩ := List.exists_mem_of_ne_nil _ hts.ne
  obtain ⟨products, N₂, l1, l2⟩ := Products.zero_aborts_dilate E n hn vs hv hE.dilate _ hus
    ⟨_, List.mem_map_of_mem ht, hz t (hfrom t ht) (hts.mono t ht).1⟩
  refine ⟨poly, max N₁ N₂, e, fun fuel rounds h1 h2 => ?_⟩
  unfold findIntegralPlf
  rw [hvar, hdr fuel rounds (by omega) (by omega), Option.bind_some, l1, Option.bind_some]
  exact l2 fuel rounds (by omega) (by omega)

/-- The segment `-1 ≤ x ≤ 1`. -/
def symP : Empty.Problem 1 where
  rows := [(1, ![-1]), (1, ![1])]
  linearity := none
  nonnegative := none
  nonnegFirst := false

theorem sym_text : text symP = "2 2 \n1 -1 \n1 1 \n".toList := by decide +kernel
theorem sym_ok : symP.Ok := ⟨by decide, by decide, by decide⟩
theorem sym_small : Small symP := ⟨by decide, by decide, by decide⟩

theorem sym_solutions (x : Fin 1 → ℝ) : x ∈ symP.Solutions ↔ -1 ≤ x 0 ∧ x 0 ≤ 1 := by
  constructor
  · rintro ⟨h1, -, -⟩
    have a := h1 (1, ![-1]) (by simp [symP])
    have b := h1 (1, ![1]) (by simp [symP])
    simp at a b
    exact ⟨by linarith, by linarith⟩
  · rintro ⟨a, b⟩
    refine ⟨fun r hr => ?_, fun i hi r hr => ?_, fun k hk => ?_⟩
    · simp only [symP, List.mem_cons, List.not_mem_nil, or_false] at hr
      rcases hr with rfl | rfl <;> simp <;> linarith
    · simp [symP] at hi
    · simp [symP] at hk

theorem sym_pi : symP.Solutions = Set.pi Set.univ fun _ : Fin 1 => Set.Icc (-1 : ℝ) 1 := by
  ext x
  rw [sym_solutions, Set.mem_univ_pi, Fin.forall_fin_one]
  rfl

theorem sym_bounded : Bornology.IsBounded symP.Solutions := by
  rw [sym_pi, Set.pi_univ_Icc]
  exact Metric.isBounded_Icc _ _

theorem sym_interior : (interior symP.Solutions).Nonempty := by
  rw [sym_pi, interior_pi_set Set.finite_univ]
  refine ⟨![0], fun k _ => ?_⟩
  simp only [interior_Icc]
  fin_cases k
  norm_num

theorem sym_extreme (x : Fin 1 → ℝ) (hx : x ∈ symP.Solutions.extremePoints ℝ) : x 0 = 1 ∨ x 0 = -1 := by
  obtain ⟨h1, h2⟩ := (mem_extremePoints.1 hx)
  rw [sym_solutions] at h1
  by_contra hno
  push Not at hno
  have ha : (fun _ => -1 : Fin 1 → ℝ) ∈ symP.Solutions := by rw [sym_solutions]; norm_num
  have hb : (fun _ => 1 : Fin 1 → ℝ) ∈ symP.Solutions := by rw [sym_solutions]; norm_num
  have h3 := h2 _ ha _ hb ⟨(1 - x 0) / 2, (1 + x 0) / 2, by
    have := lt_of_le_of_ne h1.2 hno.1
    linarith, by
    have := lt_of_le_of_ne h1.1 (Ne.symm hno.2)
    linarith, by ring, by
    funext k
    fin_cases k
    simp
    ring⟩
  have := congrFun h3.1 0
  exact hno.2 this.symm

/-- An odd function has integral zero over a symmetric set. -/
theorem integral_odd (K : Set (Fin n → ℝ)) (hK : ∀ x, x ∈ K ↔ -x ∈ K) (f : (Fin n → ℝ) → ℝ) (hf : ∀ x, f (-x) = -f x) : ∫ x in K, f x = 0 := by
  have h1 : ∫ x in K, f x = ∫ x in K, f (-x) := by
    have := (Measure.measurePreserving_neg (volume : Measure (Fin n → ℝ))).setIntegral_preimage_emb (MeasurableEquiv.neg _).measurableEmbedding f K
    rw [← this]
    congr 2
    ext x
    exact (hK x).symm
  simp only [hf, integral_neg] at h1
  linarith

/-- The polynomial `x`. -/
def linear : List (Term ℚ) := [⟨1, [1], -1⟩]

theorem linear_in : PolyIn 1 linear := ⟨by decide, by decide, by decide⟩
theorem linear_text : monomialsText linear = "[[1, [1]]]\n".toList := by decide +kernel

theorem linear_integral : ∫ x in symP.Solutions, monomialsAt linear x = 0 := by
  refine integral_odd _ (fun x => ?_) _ fun x => ?_
  · rw [sym_solutions, sym_solutions, Pi.neg_apply]
    constructor <;> rintro ⟨a, b⟩ <;> constructor <;> linarith
  · simp [monomialsAt, linear]

/-- **C94, defect.** The integral of `x` over the segment from `-1` to `1` is zero, but without an option and with `--polynomial-as-plf` the program never prints it: it is ended by the
assertion about products (C80), whatever tools are used and whatever the random numbers are. -/
theorem c94_zero_aborts {T : Tools} (hT : T.Ok) (hu : TriangulationUses T) :
    (∫ x in symP.Solutions, monomialsAt linear x = 0) ∧
    ∃ N, ∀ (o : IntegralOption) (L : IntegralLimits) (garbage : ℕ → ℤ) (hermite : ℕ), o ≠ .coneDecompose → N ≤ L.fuel → N ≤ L.rounds → ∀ answers,
      integralFile T .monomials o L garbage hermite "2 2 \n1 -1 \n1 1 \n".toList "[[1, [1]]]\n".toList ≠ .answers answers := by
  refine ⟨linear_integral, ?_⟩
  rw [← sym_text, ← linear_text]
  obtain ⟨cones, h1, h2, hext, h3⟩ := integralFile_cones hT symP sym_ok sym_small (by simp [symP]) rfl sym_bounded sym_interior
  have hv := h1.tangent.vertex
  set vs := cones.map toVCone with hvs
  by_cases hcalls : callsFail 2 (T.triangulate 1) 0 [liftedCone 1 (dilated vs)] = none
  · have hE := engineOk hT.triangulate hu vs hv h1.interior hcalls
    obtain ⟨hD, -⟩ := dilationFactorVertexRays_spec 1 vs hv
    have hDR : (0:ℝ) < dilationFactorVertexRays vs := by exact_mod_cast hD
    obtain ⟨g1, g2⟩ := dilated_rays vs hv
    set D : ℝ := (dilationFactorVertexRays vs : ℝ) with hDdef
    have hpts : ∀ r ∈ (liftedCone 1 (dilated vs)).rays, chart 1 r = (fun _ => D) ∨ chart 1 r = fun _ => -D := by
      intro r hr
      have := List.mem_map_of_mem (f := chart 1) hr
      rw [g2, List.mem_reverse] at this
      obtain ⟨c, hc, e⟩ := List.mem_map.1 this
      obtain ⟨C, hC, rfl⟩ := List.mem_map.1 hc
      rw [← e, pointR_toVCone]
      rcases sym_extreme _ (hext C hC) with h | h
      · left
        funext k
        fin_cases k
        show D * CddV.real C.vertex 0 = D
        rw [h, mul_one]
      · right
        funext k
        fin_cases k
        show D * CddV.real C.vertex 0 = -D
        rw [h]
        ring
    obtain ⟨poly, N, e, hnone⟩ := plf_zero (E := engine 2 (T.triangulate 1)) Nat.one_pos vs hv hE linear linear_in (by
      rintro ⟨co, ex, de⟩ ⟨y, hy, hex⟩ hco
      simp only [linear, List.mem_singleton] at hy
      subst hy
      simp only at hex hco
      subst hex
      refine ⟨⟨hco, by simp [monomialProduct], by simp [monomialProduct], by simp [monomialProduct]⟩, ?_⟩
      intro rs k1 k2
      have er : rs = (liftedCone 1 (dilated vs)).rays := rays_unique rs _ k1 g1 (by rw [k2, g2])
      have htri := hE.dilate rs k1 k2
      have hne : ∃ c, c ∈ engine 2 (T.triangulate 1) 0 ⟨ofDim 2, rs, 1⟩ := by
        by_contra hno
        push Not at hno
        have e0 := List.eq_nil_iff_forall_not_mem.2 hno
        have hcov := htri.cover
        rw [e0] at hcov
        simp at hcov
        have : hull 1 rs = D • polytope 1 vs := hull_eq_smul 1 rs vs _ k2
        rw [hcov] at this
        have hne' : (D • polytope 1 vs).Nonempty := (h1.interior.mono interior_subset).smul_set
        rw [← this] at hne'
        exact Set.not_nonempty_empty hne'
      obtain ⟨c, hc⟩ := hne
      have hfull := hE.full c (by rw [er] at hc; exact hc)
      refine ⟨c, hc, ((isOpen_interior.measure_pos volume hfull).trans_le (measure_mono interior_subset)).ne', ?_⟩
      have hcs : ∀ r ∈ c.rays, chart 1 r = (fun _ => D) ∨ chart 1 r = fun _ => -D := fun r hr => hpts r (by
        rw [← er]
        exact htri.sub c.rays (List.mem_map_of_mem hc) r hr)
      -- both ends occur
      have hsing : ∀ q : Fin 1 → ℝ, interior (convexHull ℝ {q}) = ∅ := fun q => by
        rw [convexHull_singleton, interior_singleton]
      have hboth : (∃ r ∈ c.rays, chart 1 r = fun _ => D) ∧ ∃ r ∈ c.rays, chart 1 r = fun _ => -D := by
        constructor
        · by_contra hno
          push Not at hno
          have : hull 1 c.rays ⊆ convexHull ℝ {fun _ => -D} := convexHull_mono (by
            rintro x ⟨r, hr, rfl⟩
            exact (hcs r hr).resolve_left (hno r hr))
          exact (hfull.mono (interior_mono this)).ne_empty (hsing _)
        · by_contra hno
          push Not at hno
          have : hull 1 c.rays ⊆ convexHull ℝ {fun _ => D} := convexHull_mono (by
            rintro x ⟨r, hr, rfl⟩
            exact (hcs r hr).resolve_right (hno r hr))
          exact (hfull.mono (interior_mono this)).ne_empty (hsing _)
      have hset : {x : Fin 1 → ℝ | ∃ r ∈ c.rays, x = chart 1 r} = {fun _ => D, fun _ => -D} := by
        ext x
        constructor
        · rintro ⟨r, hr, rfl⟩
          exact hcs r hr
        · rintro (rfl | rfl)
          · obtain ⟨r, hr, e⟩ := hboth.1
            exact ⟨r, hr, e.symm⟩
          · obtain ⟨r, hr, e⟩ := hboth.2
            exact ⟨r, hr, e.symm⟩
      have hneg : -hull 1 c.rays = hull 1 c.rays := by
        unfold hull
        rw [hset, ← convexHull_neg]
        congr 1
        ext x
        simp only [Set.mem_neg, Set.mem_insert_iff, Set.mem_singleton_iff, neg_eq_iff_eq_neg]
        have e1 : -(fun _ : Fin 1 => D) = fun _ => -D := rfl
        have e2 : -(fun _ : Fin 1 => -D) = fun _ => D := by funext; simp
        rw [e1, e2]
        exact or_comm
      refine integral_odd _ (fun x => ?_) _ fun x => ?_
      · rw [← Set.mem_neg, hneg]
      · rw [polyAt_monomialProduct, polyAt_monomialProduct]
        simp)
    refine ⟨N, fun o L garbage hermite ho a b answers => ?_⟩
    rw [h3]
    unfold computeIntegral computePolynomial
    dsimp only
    rw [load_monomials Nat.one_pos linear linear_in garbage, e]
    dsimp only
    have hplf : onLifted T 0 vs (fun E p => findIntegralPlf E L.fuel L.rounds poly p) = .error .abort := by
      unfold onLifted
      rw [hcalls]
      dsimp only
      rw [hnone L.fuel L.rounds a b]
    rw [hplf]
    cases o with
    | coneDecompose => exact absurd rfl ho
    | polynomialAsPlf => exact nofun
    | all =>
      generalize onLifted T 0 vs _ = x
      generalize onCones T 0 vs _ = y
      cases x <;> cases y <;> exact nofun
  · refine ⟨0, fun o L garbage hermite ho _ _ answers => ?_⟩
    rw [h3]
    unfold computeIntegral computePolynomial
    dsimp only
    have hbad : ∀ f, ∃ e, onLifted T 0 vs f = .error e := by
      intro f
      unfold onLifted
      cases hc : callsFail 2 (T.triangulate 1) 0 [liftedCone 1 (dilated vs)] with
      | none => exact absurd hc hcalls
      | some e => exact ⟨e, rfl⟩
    cases hl : Verif.Trie.Text.loadMonomials garbage (firstLine (monomialsText linear)) with
    | none => exact nofun
    | some poly =>
      dsimp only
      obtain ⟨e1, h1⟩ := hbad fun E p => findIntegralPoly E L.fuel L.rounds .triangulation [] [] poly p
      obtain ⟨e2, h2⟩ := hbad fun E p => findIntegralPlf E L.fuel L.rounds poly p
      cases o with
      | coneDecompose => exact absurd rfl ho
      | polynomialAsPlf => rw [h2]; exact nofun
      | all => rw [h1]; exact nofun

end Verif.Whole
