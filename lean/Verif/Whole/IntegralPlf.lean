import Verif.Whole.Integral
import Verif.Products.Examples

/-! # C94: integration of polynomials as products of linear forms -/

namespace Verif.Whole

open MeasureTheory Verif.Barvinok Verif.Barvinok.Spec Verif.Ti2 Verif.Brion Verif.Files Verif.Preprocess Verif.Valuation Latte.RatVec
open Verif.ExpSubst (Fail)
open Verif.Trie (Term insertAll emptySum drain begin' monoPoly formsPoly linFormPoly)
open Verif.Products (loadProduct findIntegralProducts Prod' productPoly Usable Proper NonzeroOnDilate ZeroOnDilate)

variable {n m d : ℕ}

/-! ## The products made of monomials -/

/-- The factors made of a monomial. -/
def factors (n : ℕ) (t : Term ℚ) : List (ℤ × List ℤ) :=
  ((List.range n).filter fun i => t.exps.getD i 0 ≠ 0).map fun i => (t.exps.getD i 0, (List.replicate n (0 : ℤ)).set i 1)

theorem monomialProduct_eq (t : Term ℚ) : monomialProduct n t = (t.coef, if factors n t = [] then [(0, List.replicate n 1)] else factors n t) := by
  unfold monomialProduct
  split
  · rename_i h
    rw [if_pos (by unfold factors; exact h)]
  · rename_i f fs h
    have : factors n t = f :: fs := h
    rw [this, if_neg (by simp)]

theorem unit_getD (i j : ℕ) (hi : i < n) : ((List.replicate n (0 : ℤ)).set i 1).getD j 0 = if j = i then 1 else 0 := by
  rw [List.getD_eq_getElem?_getD, List.getElem?_set]
  by_cases h : i = j
  · subst h
    simp [hi]
  · rw [if_neg h, if_neg (Ne.symm h), List.getElem?_replicate]
    split <;> rfl

theorem polyAt_productPoly (p : Prod') (x : Fin n → ℝ) :
    polyAt (productPoly n p) x = (p.1 : ℝ) * (p.2.map fun f => (∑ j : Fin n, ((f.2.getD j 0 : ℤ) : ℝ) * x j) ^ f.1.toNat).prod := by
  unfold polyAt productPoly
  rw [map_mul, map_list_prod, List.map_map]
  congr 1
  · simp
  · congr 1
    refine List.map_congr_left fun f _ => ?_
    simp

theorem polyAt_monomialProduct (t : Term ℚ) (x : Fin n → ℝ) :
    polyAt (productPoly n (monomialProduct n t)) x = (t.coef : ℝ) * ∏ j : Fin n, x j ^ (t.exps.getD j 0).toNat := by
  have key : ((factors n t).map fun f => (∑ j : Fin n, ((f.2.getD j 0 : ℤ) : ℝ) * x j) ^ f.1.toNat).prod = ∏ j : Fin n, x j ^ (t.exps.getD j 0).toNat := by
    unfold factors
    rw [List.map_map]
    set X : ℕ → ℝ := fun i => if h : i < n then x ⟨i, h⟩ else 0 with hX
    have e1 : ((List.range n).filter fun i => t.exps.getD i 0 ≠ 0).map
        ((fun f : ℤ × List ℤ => (∑ j : Fin n, ((f.2.getD j 0 : ℤ) : ℝ) * x j) ^ f.1.toNat) ∘ fun i => (t.exps.getD i 0, (List.replicate n (0 : ℤ)).set i 1)) =
        ((List.range n).filter fun i => t.exps.getD i 0 ≠ 0).map fun i => X i ^ (t.exps.getD i 0).toNat := by
      refine List.map_congr_left fun i hi => ?_
      have hin : i < n := List.mem_range.1 (List.mem_filter.1 hi).1
      simp only [Function.comp]
      congr 1
      rw [Finset.sum_eq_single ⟨i, hin⟩]
      · rw [unit_getD i _ hin]
        simp [hX, hin]
      · intro j _ hj
        rw [unit_getD i _ hin, if_neg (fun h => hj (Fin.ext h))]
        simp
      · simp
    rw [e1]
    have e2 : ∀ l : List ℕ, ((l.filter fun i => t.exps.getD i 0 ≠ 0).map fun i => X i ^ (t.exps.getD i 0).toNat).prod = (l.map fun i => X i ^ (t.exps.getD i 0).toNat).prod := by
      intro l
      induction l with
      | nil => rfl
      | cons a l ih =>
        rw [List.filter_cons, List.map_cons, List.prod_cons, ← ih]
        split
        · rw [List.map_cons, List.prod_cons]
        · rename_i h
          have h0 : t.exps.getD a 0 = 0 := by simpa using h
          rw [h0]
          simp
    have e3 : (List.range n).map (fun i => X i ^ (t.exps.getD i 0).toNat) = List.ofFn fun j : Fin n => x j ^ (t.exps.getD j 0).toNat := by
      apply List.ext_getElem (by simp)
      intro i h1 h2
      have hin : i < n := by simpa using h2
      simp [hX, hin]
    rw [e2, e3, List.prod_ofFn]
  rw [polyAt_productPoly, monomialProduct_eq]
  dsimp only
  congr 1
  by_cases h : factors n t = []
  · rw [if_pos h, ← key, h]
    simp
  · rw [if_neg h, key]

theorem usable_monomialProduct (t : Term ℚ) (hc : t.coef ≠ 0) (he : ∀ e ∈ t.exps, 0 ≤ e) : Usable n (monomialProduct n t) := by
  rw [monomialProduct_eq]
  by_cases h : factors n t = []
  · rw [if_pos h]
    exact Or.inr ⟨hc, _, by simp, rfl⟩
  · rw [if_neg h]
    refine Or.inl ⟨hc, h, ?_, ?_⟩
    · intro f hf
      obtain ⟨i, hi, rfl⟩ := List.mem_map.1 hf
      have h0 : t.exps.getD i 0 ≠ 0 := by simpa using (List.mem_filter.1 hi).2
      refine ⟨lt_of_le_of_ne ?_ (Ne.symm h0), by simp⟩
      by_cases hl : i < t.exps.length
      · rw [List.getD_eq_getElem _ _ hl]
        exact he _ (List.getElem_mem hl)
      · rw [List.getD_eq_default _ _ (by omega)]
    · refine (List.nodup_range.filter _).map_on ?_
      intro i hi j hj e
      have hin : i < n := List.mem_range.1 (List.mem_filter.1 hi).1
      have hjn : j < n := List.mem_range.1 (List.mem_filter.1 hj).1
      have e' := congrArg (fun l : List ℤ => l.getD i 0) (congrArg Prod.snd e)
      simp only [unit_getD i i hin, unit_getD j i hjn] at e'
      by_contra hne
      rw [if_neg hne] at e'
      simp at e'

theorem integrand_monomials (ts : List (Term ℚ)) (x : Fin n → ℝ) : polyAt (Products.integrand n (ts.map (monomialProduct n))) x = polyAt (monoPoly n ts) x := by
  rw [Products.polyAt_integrand, polyAt_mono, List.map_map]
  congr 1
  exact List.map_congr_left fun t _ => polyAt_monomialProduct t x

/-! ## Full-dimensional simplices -/

theorem part_interior (p : List (Vec (n + 1))) (hs : Regular.Spans p) (hp : ∀ r ∈ p, 0 < r (Fin.last n)) : (interior (hull n (p.map toList))).Nonempty := by
  unfold hull
  rw [interior_convexHull_nonempty_iff_affineSpan_eq_top]
  set s : Set (Fin n → ℝ) := {x | ∃ r ∈ p.map toList, x = chart n r} with hsdef
  have hne : ∃ r0, r0 ∈ p := by
    by_contra hno
    push Not at hno
    have := congrFun (hs (fun _ => 1) fun r hr => absurd hr (hno r)) 0
    norm_num at this
  obtain ⟨r0, hr0⟩ := hne
  have hmem : ∀ r ∈ p, chart n (toList r) ∈ s := fun r hr => ⟨_, List.mem_map_of_mem hr, rfl⟩
  by_contra htop
  have hdir : vectorSpan ℝ s ≠ ⊤ := fun h => htop ((AffineSubspace.affineSpan_eq_top_iff_vectorSpan_eq_top_of_nonempty ℝ _ _ ⟨_, hmem r0 hr0⟩).2 h)
  obtain ⟨f, hf0, hf⟩ := Submodule.exists_le_ker_of_lt_top _ (lt_top_iff_ne_top.2 hdir)
  have hconst : ∀ r ∈ p, f (chart n (toList r)) = f (chart n (toList r0)) := by
    intro r hr
    have h1 : chart n (toList r) -ᵥ chart n (toList r0) ∈ vectorSpan ℝ s := vsub_mem_vectorSpan ℝ (hmem r hr) (hmem r0 hr0)
    have h2 := hf h1
    rw [LinearMap.mem_ker, vsub_eq_sub, map_sub, sub_eq_zero] at h2
    exact h2
  have hsum : ∀ x : Fin n → ℝ, f x = ∑ k, x k * f (Pi.single k 1) := fun x => by
    rw [LinearMap.pi_apply_eq_sum_univ f x]
    refine Finset.sum_congr rfl fun k _ => ?_
    rw [smul_eq_mul]
    congr 2
    funext j
    simp [Pi.single_apply, eq_comm]
  have hz := hs (Fin.snoc (fun k => f (Pi.single k 1)) (-f (chart n (toList r0)))) (by
    intro r hr
    have hr' : (r (Fin.last n) : ℝ) ≠ 0 := by exact_mod_cast (hp r hr).ne'
    have h1 := hconst r hr
    rw [hsum, chart_toList] at h1
    unfold dot
    rw [Fin.sum_univ_castSucc]
    simp only [Fin.snoc_castSucc, Fin.snoc_last]
    rw [← h1, mul_neg, Finset.mul_sum, ← sub_eq_add_neg, ← Finset.sum_sub_distrib]
    refine Finset.sum_eq_zero fun k _ => ?_
    field_simp
    ring)
  apply hf0
  ext k
  have := congrFun hz k.castSucc
  simp only [Fin.snoc_castSucc, Pi.zero_apply] at this
  simpa using this

/-- What is needed about an engine: it triangulates the dilated polytope into full-dimensional simplices. -/
structure EngineOk (E : ℕ → VCone → List VCone) (n : ℕ) (vs : List VCone) : Prop where
  dilate : TriangulatesDilate E n vs
  full : ∀ c ∈ E 0 (liftedCone n (dilated vs)), (interior (hull n c.rays)).Nonempty

theorem engineOk {T : Tools} (hT : ∀ d t, Regular.TriangulationOk (T.triangulate d t)) (hu : TriangulationUses T) (vs : List VCone)
    (hv : ∀ c ∈ vs, VertexOk (d + 1) c.vertex) (hi : (interior (polytope (d + 1) vs)).Nonempty)
    (hcalls : callsFail (d + 2) (T.triangulate (d + 1)) 0 [liftedCone (d + 1) (dilated vs)] = none) : EngineOk (engine (d + 2) (T.triangulate (d + 1))) (d + 1) vs := by
  refine ⟨triangulatesDilate hT hu vs hv hi hcalls, ?_⟩
  obtain ⟨parts, e1, e2, -⟩ := engine_dilate hT hu vs hv hi hcalls
  rw [e1]
  intro c hc
  obtain ⟨p, hp, rfl⟩ := List.mem_map.1 hc
  exact part_interior p (e2 p hp).1 (e2 p hp).2.2

/-- Integration of a polynomial as a sum of products: an answer is right; and there is one unless the integral of some monomial over one of the simplices is zero. -/
theorem plf_right {E : ℕ → VCone → List VCone} (hn : 0 < n) (vs : List VCone) (hv : ∀ c ∈ vs, VertexOk n c.vertex) (hE : EngineOk E n vs)
    (xs : List (Term ℚ)) (hx : PolyIn n xs) :
    ∃ (poly : Verif.Trie.Sum ℚ) (N : ℕ), insertAll (emptySum ℚ n) xs = some poly ∧
      (∀ fuel rounds, N ≤ fuel → N ≤ rounds → ∀ r p', findIntegralPlf E fuel rounds poly (ofCones n vs) = some (r, p') →
        (r : ℝ) = ∫ x in polytope n vs, polyAt (monoPoly n xs) x) ∧
      ((∀ t : Term ℚ, (∃ y ∈ xs, t.exps = y.exps) → t.coef ≠ 0 → NonzeroOnDilate E n vs (productPoly n (monomialProduct n t))) →
        ∀ fuel rounds, N ≤ fuel → N ≤ rounds → ∃ r p', findIntegralPlf E fuel rounds poly (ofCones n vs) = some (r, p')) := by
  obtain ⟨poly, ts, N₁, e, -, hvar, hdr, hts, -, hpoly, hfrom⟩ := drained n hn xs hx
  set ps := ts.map (monomialProduct n) with hps
  have hus : ∀ p ∈ ps, Usable n p := by
    intro p hp
    obtain ⟨t, ht, rfl⟩ := List.mem_map.1 hp
    exact usable_monomialProduct t (hts.mono t ht).1 (hts.mono t ht).2.2.2
  have hint : (fun x => polyAt (Products.integrand n ps) x) = fun x => polyAt (monoPoly n xs) x := by
    funext x
    rw [hps, integrand_monomials, hpoly]
  have hunfold : ∀ products, (ps.mapM fun p => loadProduct n p.1 p.2) = some products → ∀ fuel rounds, N₁ ≤ fuel → N₁ ≤ rounds →
      findIntegralPlf E fuel rounds poly (ofCones n vs) = findIntegralProducts E fuel rounds n products (ofCones n vs) := by
    intro products hp fuel rounds h1 h2
    unfold findIntegralPlf
    rw [hvar, hdr fuel rounds h1 h2, Option.bind_some, ← hps, hp, Option.bind_some]
  by_cases hz : ∀ p ∈ ps, Proper n p → NonzeroOnDilate E n vs (productPoly n p)
  · obtain ⟨products, r, N₂, l1, l2, l3⟩ := Products.integral_products_dilate E n hn vs hv hE.dilate ps hus hz
    refine ⟨poly, max N₁ N₂, e, ?_, ?_⟩
    · intro fuel rounds h1 h2 r' p' hr
      rw [hunfold products l1 fuel rounds (by omega) (by omega)] at hr
      obtain ⟨p'', h3⟩ := l2 fuel rounds (by omega) (by omega)
      rw [h3] at hr
      cases hr
      rw [l3]
      exact congrArg (fun f => ∫ x in polytope n vs, f x) hint
    · intro _ fuel rounds h1 h2
      obtain ⟨p'', h3⟩ := l2 fuel rounds (by omega) (by omega)
      exact ⟨r, p'', by rw [hunfold products l1 fuel rounds (by omega) (by omega), h3]⟩
  · have hz' := hz
    push Not at hz
    obtain ⟨p, hp, hpp, hnz⟩ := hz
    have hzero : ZeroOnDilate E n vs (productPoly n p) := by
      unfold NonzeroOnDilate at hnz
      push Not at hnz
      obtain ⟨rs, g1, g2, c, hc, hcz⟩ := hnz
      intro rs' g1' g2'
      obtain ⟨h1, h2⟩ := dilated_rays vs hv
      have e1 : rs = (liftedCone n (dilated vs)).rays := rays_unique rs _ g1 h1 (by rw [g2, h2])
      have e2 : rs' = (liftedCone n (dilated vs)).rays := rays_unique rs' _ g1' h1 (by rw [g2', h2])
      rw [e1] at hc
      rw [e2]
      have hfull := hE.full c hc
      exact ⟨c, hc, ((isOpen_interior.measure_pos volume hfull).trans_le (measure_mono interior_subset)).ne', hcz⟩
    obtain ⟨products, N₂, l1, l2⟩ := Products.zero_aborts_dilate E n hn vs hv hE.dilate ps hus ⟨p, hp, hpp, hzero⟩
    refine ⟨poly, max N₁ N₂, e, ?_, ?_⟩
    · intro fuel rounds h1 h2 r' p' hr
      rw [hunfold products l1 fuel rounds (by omega) (by omega), l2 fuel rounds (by omega) (by omega)] at hr
      cases hr
    · intro hall
      refine absurd (fun p hp _ => ?_) hz'
      obtain ⟨t, ht, rfl⟩ := List.mem_map.1 hp
      exact hall t (hfrom t ht) (hts.mono t ht).1

/-- A function that is positive inside the orthant has no integral zero over a simplex. -/
theorem nonzero_positive {E : ℕ → VCone → List VCone} (vs : List VCone) (hv : ∀ c ∈ vs, VertexOk n c.vertex) (hE : EngineOk E n vs)
    (hpos : ∀ x ∈ polytope n vs, ∀ j, 0 ≤ x j) (f : MvPolynomial (Fin n) ℚ) (q : ℚ) (hq : q ≠ 0) (g : (Fin n → ℝ) → ℝ) (hf : ∀ x, polyAt f x = (q : ℝ) * g x)
    (hg : Continuous g) (h0 : ∀ x, (∀ j, 0 ≤ x j) → 0 ≤ g x) (h1 : ∀ x, (∀ j, 0 < x j) → g x ≠ 0) : NonzeroOnDilate E n vs f := by
  intro rs g1 g2 c hc
  obtain ⟨hD, -⟩ := dilationFactorVertexRays_spec n vs hv
  have hDR : (0:ℝ) < dilationFactorVertexRays vs := by exact_mod_cast hD
  obtain ⟨k1, k2⟩ := dilated_rays vs hv
  have e1 : rs = (liftedCone n (dilated vs)).rays := rays_unique rs _ g1 k1 (by rw [g2, k2])
  have htri := hE.dilate rs g1 g2
  have hfull := hE.full c (by rw [e1] at hc; exact hc)
  have hsub : hull n c.rays ⊆ {x | ∀ j, 0 ≤ x j} := by
    intro x hx
    have hx' : x ∈ hull n rs := by
      rw [htri.cover]
      exact Set.mem_iUnion₂.2 ⟨c.rays, List.mem_map.2 ⟨c, hc, rfl⟩, hx⟩
    rw [hull_eq_smul n rs vs _ g2] at hx'
    obtain ⟨y, hy, rfl⟩ := hx'
    intro j
    exact mul_nonneg hDR.le (hpos y hy j)
  have hint : ∀ x ∈ interior (hull n c.rays), ∀ j, 0 < x j := by
    intro x hx j
    have hx' : x ∈ interior {x : Fin n → ℝ | ∀ j, 0 ≤ x j} := interior_mono hsub hx
    have hsub' : {x : Fin n → ℝ | ∀ j, 0 ≤ x j} = Set.univ.pi fun _ : Fin n => Set.Ici (0:ℝ) := by
      ext y
      simp [Pi.le_def]
    rw [hsub', interior_pi_set Set.finite_univ] at hx'
    have := hx' j (Set.mem_univ j)
    rwa [interior_Ici, Set.mem_Ioi] at this
  simp only [hf]
  rw [integral_const_mul]
  refine mul_ne_zero (by exact_mod_cast hq) ?_
  exact Products.integral_ne_zero_of_pos _ _ (hull_isCompact n c.rays) isOpen_interior hfull interior_subset _ hg (fun x hx => h0 x (hsub hx)) (fun x hx => h1 x (hint x hx))

/-- In the orthant no monomial has integral zero over a simplex. -/
theorem nonzero_orthant {E : ℕ → VCone → List VCone} (vs : List VCone) (hv : ∀ c ∈ vs, VertexOk n c.vertex) (hE : EngineOk E n vs)
    (hpos : ∀ x ∈ polytope n vs, ∀ j, 0 ≤ x j) (t : Term ℚ) (ht : t.coef ≠ 0) : NonzeroOnDilate E n vs (productPoly n (monomialProduct n t)) :=
  nonzero_positive vs hv hE hpos _ t.coef ht _ (polyAt_monomialProduct t) (by fun_prop) (fun x hx => Finset.prod_nonneg fun j _ => pow_nonneg (hx j) _)
    fun x hx => (Finset.prod_pos fun j _ => pow_pos (hx j) _).ne'

end Verif.Whole
