import Verif.Whole.IntegralFile
import Verif.Products.Text

/-!
# C94: integrals of products of powers of linear forms over the polytope in a file

`integrate --valuation=integrate --product-linear-forms=INTEGRAND FILE`: `computeIntegralProductLinearForm` (`code/latte/valuation/valuation.cpp`:290–325).
-/

namespace Verif.Whole

open MeasureTheory Verif.Barvinok Verif.Barvinok.Spec Verif.Ti2 Verif.Brion Verif.Files Verif.Preprocess Verif.Valuation Latte.RatVec
open Verif.Products (loadProduct findIntegralProducts productPoly ZeroOnDilate NonzeroOnDilate Proper Usable Constant Prod' productsText loadLinFormProducts)

variable {n d : ℕ}

/-! ## Model -/

/-- valuation.cpp:290–325 `computeIntegralProductLinearForm`. -/
def computeProducts (T : Tools) (L : IntegralLimits) (line : List Char) (d : ℕ) (vs : List VCone) : VolumeEnding :=
  match loadLinFormProducts line with
  | none => .ended (.failed .abort)
  | some (k, products) => conclude [onLifted T d vs fun E p => findIntegralProducts E L.fuel L.rounds k products p] []

/-- As `integralRows`, for products. -/
def productsRows (T : Tools) (L : IntegralLimits) (line : List Char) : ∀ d, List (Row d) → VolumeEnding
  | 0, _ => .ended .undefined
  | d + 1, rows =>
    let ineqs : List (ℤ × Vec (d + 1)) := rows.map fun r => (r.b, r.a)
    match (CddV.computeVertexCones (T.vertices (d + 1) ineqs).1 (T.vertices (d + 1) ineqs).2 : CddV.Outcome (d + 1)) with
    | .done (some k) => .ended (.number k)
    | .done none => .ended .noNumber
    | .stop => .ended .stop
    | .undefined => .ended .undefined
    | .cones cones => computeProducts T L line d (cones.map toVCone)

/-- **`integrate --valuation=integrate --product-linear-forms=INTEGRAND FILE`**; `s` is the text of `FILE`, `t` that of `INTEGRAND`. -/
def productsFile (T : Tools) (L : IntegralLimits) (hermite : ℕ) (s t : List Char) : VolumeEnding :=
  match fileRows T hermite s with
  | .ended e => .ended e
  | .rows d l => productsRows T L (firstLine t) d l

/-! ## Specification -/

/-- **Specification.** The value at `x` of a sum of products of powers of linear forms. -/
noncomputable def productsAt (ps : List Prod') (x : Fin n → ℝ) : ℝ :=
  (ps.map fun p : Prod' => (p.1 : ℝ) * (p.2.map fun f : ℤ × List ℤ => (∑ j : Fin n, (f.2.getD j 0 : ℝ) * x j) ^ f.1.toNat).prod).sum

/-! ## Proofs -/

theorem productsAt_integrand (ps : List Prod') (x : Fin n → ℝ) : polyAt (Products.integrand n ps) x = productsAt ps x := by
  rw [Products.polyAt_integrand]
  unfold productsAt
  congr 1
  exact List.map_congr_left fun p _ => polyAt_productPoly p x

theorem factorText_newline (f : ℤ × List ℤ) : '\n' ∉ Products.factorText f := by
  simp only [Products.factorText, List.mem_cons, List.mem_append, not_or]
  exact ⟨by decide, Trie.Text.printInt_no _ _ (by decide) (by decide), by decide, by decide, by decide,
    Trie.Text.printVec_no _ _ (by decide) (by decide) (by decide) (by decide), by decide, by decide, by simp⟩

theorem factorsText_newline : ∀ fs : List (ℤ × List ℤ), '\n' ∉ Products.factorsText fs
  | [] => by simp [Products.factorsText]
  | [f] => by simpa [Products.factorsText] using factorText_newline f
  | f :: g :: fs => by
    have := factorsText_newline (g :: fs)
    simp only [Products.factorsText, List.mem_append, List.mem_cons, not_or]
    exact ⟨factorText_newline f, by decide, by decide, this⟩

theorem productText_newline (p : Prod') : '\n' ∉ Products.productText p := by
  simp only [Products.productText, List.mem_cons, List.mem_append, not_or]
  exact ⟨by decide, Trie.Text.printRat_no _ _ (by decide) (by decide) (by decide), by decide, by decide, by decide, factorsText_newline _, by decide, by decide, by simp⟩

theorem sumText_newline : ∀ ps : List Prod', '\n' ∉ Products.sumText ps
  | [] => by simp [Products.sumText]
  | [p] => by simpa [Products.sumText] using productText_newline p
  | p :: q :: ps => by
    have := sumText_newline (q :: ps)
    simp only [Products.sumText, List.mem_append, List.mem_cons, not_or]
    exact ⟨productText_newline p, by decide, by decide, this⟩

theorem firstLine_products (ps : List Prod') (rest : List Char) : firstLine (productsText ps ++ '\n' :: rest) = productsText ps := by
  unfold firstLine
  rw [List.takeWhile_append_of_pos]
  · simp
  · intro c hc
    simp only [productsText, List.mem_cons, List.mem_append] at hc
    simp only [decide_eq_true_eq]
    rintro rfl
    rcases hc with hc | hc | hc | hc
    · revert hc; decide
    · exact sumText_newline ps hc
    · revert hc; decide
    · cases hc

theorem usable_shape {p : Prod'} (h : Usable n p) : p.2 ≠ [] ∧ ∀ f ∈ p.2, f.2.length = n := by
  rcases h with h | ⟨-, l, hl, e⟩
  · exact ⟨h.ne, fun f hf => (h.factor f hf).2⟩
  · rw [e]
    refine ⟨by simp, fun f hf => ?_⟩
    rw [List.mem_singleton.1 hf]
    exact hl

theorem productsFile_cones {T : Tools} (hT : T.Ok) (P : Empty.Problem (d + 1)) (h : P.Ok) (hs : Small P) (h0 : P.rows ≠ []) (hf : P.nonnegFirst = false)
    (hb : Bornology.IsBounded P.Solutions) (hi : (interior P.Solutions).Nonempty) :
    ∃ cones : List (GCone (d + 1)), PolytopeCones d cones ∧ polytope (d + 1) (cones.map toVCone) = P.Solutions ∧
      ∀ L hermite t, productsFile T L hermite (text P) t = computeProducts T L (firstLine t) d (cones.map toVCone) := by
  obtain ⟨l, e, hl⟩ := fileRows_full hT P h hs h0 hf hi
  rw [← hl] at hb hi ⊢
  obtain ⟨cones, e0, h1, h2⟩ := rows_cones hT l hb hi
  refine ⟨cones, h1, h2.1, fun L hermite t => ?_⟩
  unfold productsFile
  rw [e hermite]
  show productsRows T L (firstLine t) (d + 1) l = _
  unfold productsRows
  change (match (CddV.computeVertexCones (T.vertices (d + 1) (pairs l)).1 (T.vertices (d + 1) (pairs l)).2 : CddV.Outcome (d + 1)) with
    | .done (some k) => VolumeEnding.ended (.number k)
    | .done none => .ended .noNumber
    | .stop => .ended .stop
    | .undefined => .ended .undefined
    | .cones cones => computeProducts T L (firstLine t) d (cones.map toVCone)) = _
  rw [e0]

/-- An answer is right; and there is one unless the integral of some product over one of the simplices is zero. -/
theorem products_right {E : ℕ → VCone → List VCone} (hn : 0 < n) (vs : List VCone) (hv : ∀ c ∈ vs, VertexOk n c.vertex) (hE : EngineOk E n vs)
    (ps : List Prod') (hps : ∀ p ∈ ps, Usable n p) :
    ∃ (products : List (Verif.Trie.Sum ℚ)) (N : ℕ), (ps.mapM fun p => loadProduct n p.1 p.2) = some products ∧
      (∀ fuel rounds, N ≤ fuel → N ≤ rounds → ∀ r p', findIntegralProducts E fuel rounds n products (ofCones n vs) = some (r, p') →
        (r : ℝ) = ∫ x in polytope n vs, productsAt ps x) ∧
      ((∀ p ∈ ps, Proper n p → NonzeroOnDilate E n vs (productPoly n p)) →
        ∀ fuel rounds, N ≤ fuel → N ≤ rounds → ∃ r p', findIntegralProducts E fuel rounds n products (ofCones n vs) = some (r, p')) := by
  have hint : (fun x => polyAt (Products.integrand n ps) x) = fun x => productsAt ps x := funext fun x => productsAt_integrand ps x
  by_cases hz : ∀ p ∈ ps, Proper n p → NonzeroOnDilate E n vs (productPoly n p)
  · obtain ⟨products, r, N, l1, l2, l3⟩ := Products.integral_products_dilate E n hn vs hv hE.dilate ps hps hz
    refine ⟨products, N, l1, ?_, ?_⟩
    · intro fuel rounds h1 h2 r' p' hr
      obtain ⟨p'', h3⟩ := l2 fuel rounds h1 h2
      rw [h3] at hr
      cases hr
      rw [l3]
      exact congrArg (fun f => ∫ x in polytope n vs, f x) hint
    · intro _ fuel rounds h1 h2
      obtain ⟨p'', h3⟩ := l2 fuel rounds h1 h2
      exact ⟨r, p'', h3⟩
  · have hz' := hz
    push Not at hz
    obtain ⟨p, hp, hpp, hnz⟩ := hz
    have hzero : ZeroOnDilate E n vs (productPoly n p) := by
      unfold NonzeroOnDilate at hnz
      push Not at hnz
      obtain ⟨rs, g1, g2, c, hc, hcz⟩ := hnz
      intro rs' g1' g2'
      obtain ⟨h1, h2⟩ := dilated_rays vs hv
      have e1 : rs = (liftedCone n (dilated vs)).rays := rays_unique rs _ g1 h1 (by rw [g2, h2])
      have e2 : rs' = (liftedCone n (dilated vs)).rays := rays_unique rs' _ g1' h1 (by rw [g2', h2])
      rw [e1] at hc
      rw [e2]
      have hfull := hE.full c hc
      exact ⟨c, hc, ((isOpen_interior.measure_pos volume hfull).trans_le (measure_mono interior_subset)).ne', hcz⟩
    obtain ⟨products, N, l1, l2⟩ := Products.zero_aborts_dilate E n hn vs hv hE.dilate ps hps ⟨p, hp, hpp, hzero⟩
    refine ⟨products, N, l1, ?_, fun hall => absurd hall hz'⟩
    intro fuel rounds h1 h2 r' p' hr
    rw [l2 fuel rounds h1 h2] at hr
    cases hr

/-- **C94: integrals of products of powers of linear forms are right.** For every file that describes a polytope with interior points and every file that begins with a line with a sum of
products: whatever the triangulation is, an answer printed is the integral of the function over the polytope. -/
theorem c94_products {T : Tools} (hT : T.Ok) (hu : TriangulationUses T) (hn : 0 < n) (P : Empty.Problem n) (h : P.Ok) (hs : Small P)
    (h0 : P.rows ≠ []) (hf : P.nonnegFirst = false) (hb : Bornology.IsBounded P.Solutions) (hi : (interior P.Solutions).Nonempty)
    (ps : List Prod') (hne : ps ≠ []) (hps : ∀ p ∈ ps, Usable n p) :
    ∃ N, ∀ (L : IntegralLimits) (hermite : ℕ) (rest : List Char), N ≤ L.fuel → N ≤ L.rounds →
      productsFile T L hermite (text P) (productsText ps ++ '\n' :: rest) ≠ .differ ∧
      ∀ answers, productsFile T L hermite (text P) (productsText ps ++ '\n' :: rest) = .answers answers →
        ∃ v : ℚ, answers = [v] ∧ (v : ℝ) = ∫ x in P.Solutions, productsAt ps x := by
  obtain ⟨d, rfl⟩ := Nat.exists_eq_succ_of_ne_zero hn.ne'
  obtain ⟨cones, h1, h2, h3⟩ := productsFile_cones hT P h hs h0 hf hb hi
  have hv := h1.tangent.vertex
  set vs := cones.map toVCone with hvs
  have key : ∃ N, ∀ L : IntegralLimits, N ≤ L.fuel → N ≤ L.rounds → ∀ products, (ps.mapM fun p => loadProduct (d + 1) p.1 p.2) = some products → ∀ v,
      onLifted T d vs (fun E p => findIntegralProducts E L.fuel L.rounds (d + 1) products p) = .ok v → (v : ℝ) = ∫ x in P.Solutions, productsAt ps x := by
    by_cases hcalls : callsFail (d + 2) (T.triangulate (d + 1)) 0 [liftedCone (d + 1) (dilated vs)] = none
    · obtain ⟨products', N, e', g, -⟩ := products_right (Nat.succ_pos d) vs hv (engineOk hT.triangulate hu vs hv h1.interior hcalls) ps hps
      refine ⟨N, fun L a b products e v hv' => ?_⟩
      rw [e'] at e
      cases e
      obtain ⟨-, p', hf'⟩ := onLifted_ok hv'
      rw [← h2]
      exact g L.fuel L.rounds a b v p' hf'
    · exact ⟨0, fun L _ _ products _ v hv' => absurd (onLifted_ok hv').1 hcalls⟩
  obtain ⟨N, hN⟩ := key
  refine ⟨N, fun L hermite rest a b => ?_⟩
  rw [h3]
  unfold computeProducts
  rw [firstLine_products, Products.load_products (Nat.succ_pos d) ps hne fun p hp => usable_shape (hps p hp)]
  cases e : ps.mapM fun p => loadProduct (d + 1) p.1 p.2 with
  | none => exact ⟨nofun, nofun⟩
  | some products =>
    dsimp only [Option.map_some]
    have hone := conclude_right (∫ x in P.Solutions, productsAt ps x) [_] [] (List.forall_mem_cons.2 ⟨hN L a b products e, by simp⟩) (by simp)
    refine ⟨hone.1, fun l hl => ?_⟩
    obtain ⟨k1, k2⟩ := hone.2 l hl
    match l, k1 with
    | [v], _ => exact ⟨v, rfl, k2 v (by simp)⟩

theorem getD_nonneg (l : List ℤ) (h : ∀ a ∈ l, 0 ≤ a) (i : ℕ) : 0 ≤ l.getD i 0 := by
  by_cases hi : i < l.length
  · rw [List.getD_eq_getElem _ _ hi]
    exact h _ (List.getElem_mem hi)
  · rw [List.getD_eq_default _ _ (by omega)]

theorem form_nonneg (l : List ℤ) (h : ∀ a ∈ l, 0 ≤ a) (x : Fin n → ℝ) (hx : ∀ j, 0 ≤ x j) : 0 ≤ ∑ j : Fin n, (l.getD j 0 : ℝ) * x j :=
  Finset.sum_nonneg fun j _ => mul_nonneg (by exact_mod_cast getD_nonneg l h j) (hx j)

theorem form_pos (l : List ℤ) (hl : l.length = n) (h : ∀ a ∈ l, 0 ≤ a) (hne : ∃ a ∈ l, a ≠ 0) (x : Fin n → ℝ) (hx : ∀ j, 0 < x j) : 0 < ∑ j : Fin n, (l.getD j 0 : ℝ) * x j := by
  obtain ⟨a, ha, ha0⟩ := hne
  obtain ⟨i, hi, rfl⟩ := List.getElem_of_mem ha
  refine Finset.sum_pos' (fun j _ => mul_nonneg (by exact_mod_cast getD_nonneg l h j) (hx j).le) ⟨⟨i, by omega⟩, Finset.mem_univ _, mul_pos ?_ (hx _)⟩
  rw [List.getD_eq_getElem _ _ hi]
  have := h _ ha
  exact_mod_cast lt_of_le_of_ne this (Ne.symm ha0)

theorem continuous_products (fs : List (ℤ × List ℤ)) :
    Continuous fun x : Fin n → ℝ => (fs.map fun f : ℤ × List ℤ => (∑ j : Fin n, (f.2.getD j 0 : ℝ) * x j) ^ f.1.toNat).prod := by
  induction fs with
  | nil => simpa using continuous_const
  | cons f fs ih =>
    simp only [List.map_cons, List.prod_cons]
    exact Continuous.mul (by fun_prop) ih

/-- **C94: an answer is printed in the orthant**, if the triangulation goes through and the linear forms have non-negative coefficients, not all zero. -/
theorem c94_products_total {T : Tools} (hT : T.Ok) (hu : TriangulationUses T) (htri : TriangulationTotal T) (hn : 0 < n) (P : Empty.Problem n) (h : P.Ok) (hs : Small P)
    (h0 : P.rows ≠ []) (hf : P.nonnegFirst = false) (hb : Bornology.IsBounded P.Solutions) (hi : (interior P.Solutions).Nonempty) (hpos : ∀ x ∈ P.Solutions, ∀ j, 0 ≤ x j)
    (ps : List Prod') (hne : ps ≠ []) (hps : ∀ p ∈ ps, Usable n p) (hform : ∀ p ∈ ps, ∀ f ∈ p.2, (∀ a ∈ f.2, 0 ≤ a) ∧ ∃ a ∈ f.2, a ≠ 0) :
    ∃ (v : ℚ) (N : ℕ), (v : ℝ) = ∫ x in P.Solutions, productsAt ps x ∧ ∀ (L : IntegralLimits) (hermite : ℕ) (rest : List Char), N ≤ L.fuel → N ≤ L.rounds →
      productsFile T L hermite (text P) (productsText ps ++ '\n' :: rest) = .answers [v] := by
  obtain ⟨N₁, hN₁⟩ := c94_products hT hu hn P h hs h0 hf hb hi ps hne hps
  obtain ⟨d, rfl⟩ := Nat.exists_eq_succ_of_ne_zero hn.ne'
  obtain ⟨cones, h1, h2, h3⟩ := productsFile_cones hT P h hs h0 hf hb hi
  have hv := h1.tangent.vertex
  have hcalls := calls_dilated htri _ hv h1.interior
  have hE := engineOk hT.triangulate hu _ hv h1.interior hcalls
  obtain ⟨products, N₂, e, -, htot⟩ := products_right (Nat.succ_pos d) _ hv hE ps hps
  have htot := htot fun p hp hpp => by
    have hform' := hform p hp
    refine nonzero_positive _ hv hE (by rw [h2]; exact hpos) _ p.1 hpp.coef _ (fun x => polyAt_productPoly p x) ?_ ?_ ?_
    · exact continuous_products p.2
    · intro x hx
      refine List.prod_nonneg fun y hy => ?_
      obtain ⟨f, hf, rfl⟩ := List.mem_map.1 hy
      exact pow_nonneg (form_nonneg f.2 (hform' f hf).1 x hx) _
    · intro x hx h0
      obtain ⟨f, hf, e⟩ := List.mem_map.1 (List.prod_eq_zero_iff.1 h0)
      exact (form_pos f.2 (hpp.factor f hf).2 (hform' f hf).1 (hform' f hf).2 x hx).ne' (pow_eq_zero_iff (by have := (hpp.factor f hf).1; omega) |>.1 e)
  have key : ∀ (L : IntegralLimits) (hermite : ℕ) (rest : List Char), max N₁ N₂ ≤ L.fuel → max N₁ N₂ ≤ L.rounds → ∃ v : ℚ,
      productsFile T L hermite (text P) (productsText ps ++ '\n' :: rest) = .answers [v] := by
    intro L hermite rest a b
    obtain ⟨r, p', hr⟩ := htot L.fuel L.rounds (by omega) (by omega)
    refine ⟨r, ?_⟩
    rw [h3]
    unfold computeProducts
    rw [firstLine_products, Products.load_products (Nat.succ_pos d) ps hne fun p hp => usable_shape (hps p hp), e]
    dsimp only [Option.map_some]
    rw [onLifted_some hcalls hr]
    simp [conclude]
  obtain ⟨v, hv₀⟩ := key ⟨max N₁ N₂, max N₁ N₂, [], []⟩ 0 [] le_rfl le_rfl
  have hval : ∀ (L : IntegralLimits) (hermite : ℕ) (rest : List Char) (v : ℚ), N₁ ≤ L.fuel → N₁ ≤ L.rounds →
      productsFile T L hermite (text P) (productsText ps ++ '\n' :: rest) = .answers [v] → (v : ℝ) = ∫ x in P.Solutions, productsAt ps x := by
    intro L hermite rest v a b hl
    obtain ⟨w, hw, hw'⟩ := (hN₁ L hermite rest a b).2 _ hl
    cases hw
    exact hw'
  have hv₁ := hval _ _ _ v (le_max_left _ _) (le_max_left _ _) hv₀
  refine ⟨v, max N₁ N₂, hv₁, fun L hermite rest a b => ?_⟩
  obtain ⟨w, hw⟩ := key L hermite rest a b
  have hwv := hval L hermite rest w (by omega) (by omega) hw
  rw [hw, show w = v by exact_mod_cast hwv.trans hv₁.symm]

end Verif.Whole
