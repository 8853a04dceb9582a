import Verif.Valuation.Props

/-! C52, C53, C54: behaviour of the valuation class outside the good case. -/

namespace Verif.Valuation

open MeasureTheory Set Verif.Measure Verif.Trie Latte.RatVec

/-! ### C52: the same monomial twice -/

theorem insertAll_count (n : ℕ) (hn : 0 < n) (xs : List (Term ℚ)) (hx : ∀ x ∈ xs, x.exps.length = n) :
    ∃ s, insertAll (emptySum ℚ n) xs = some s ∧ s.termCount ≤ xs.length := by
  obtain ⟨s, e, o⟩ := insertAll_ok n hn xs hx
  refine ⟨s, e, ?_⟩
  rw [o.count]
  exact List.length_filter_le _ _

/-- **C52 (the full claim is false).** If some monomial is inserted twice, even with coefficients that do not cancel, then every request
to integrate the stored polynomial, by either method, over every polytope, aborts (assertion on the number of terms). -/
theorem c52_duplicate_monomials_abort (n : ℕ) (hn : 0 < n) (xs : List (Term ℚ))
    (hx : ∀ x ∈ xs, x.coef ≠ 0 ∧ x.degree = -1 ∧ x.exps.length = n ∧ ∀ e ∈ x.exps, 0 ≤ e) (hdup : ¬ (xs.map (·.exps)).Nodup) :
    ∃ poly N, insertAll (emptySum ℚ n) xs = some poly ∧ ∀ fuel rounds, N ≤ fuel → N ≤ rounds → ∀ T m draws draws' p,
      findIntegralPoly T fuel rounds m draws draws' poly p = none := by
  classical
  have hne : xs ≠ [] := by rintro rfl; simp at hdup
  obtain ⟨x0, hx0⟩ := List.exists_mem_of_ne_nil xs hne
  obtain ⟨poly, ts, N, e, o, d, a1, a2, a3⟩ := insertAll_drain n hn xs (fun x h => (hx x h).2.2.1) ⟨x0, hx0, (hx x0 hx0).1⟩
  have hfrom : ∀ t ∈ ts, ∃ x ∈ xs, x.key = t.key := delivered_from xs ts (fun t ht => (a1 t ht).1) a2 a3
  have hdeg : ∀ t ∈ ts, t.degree = -1 := by
    intro t ht
    obtain ⟨x, hx', hk⟩ := hfrom t ht
    have : x.degree = t.degree := congrArg Prod.fst hk
    rw [← this, (hx x hx').2.1]
  have hnd : (ts.map (·.exps)).Nodup := by
    rw [List.Nodup, List.pairwise_map]
    refine a3.imp_of_mem ?_
    intro a b ha hb hab he
    have := hab (by rw [hdeg a ha, hdeg b hb])
    rw [he] at this
    exact lex_irrefl this
  have hnn : ∀ t ∈ ts, ∀ e ∈ t.exps, 0 ≤ e := by
    intro t ht
    obtain ⟨x, hx', hk⟩ := hfrom t ht
    have : x.exps = t.exps := congrArg Prod.snd hk
    rw [← this]
    exact (hx x hx').2.2.2
  have hlt : ts.length < xs.length := by
    have hsub : (ts.map (·.exps)) ⊆ (xs.map (·.exps)).dedup := by
      intro es hes
      rw [List.mem_dedup]
      obtain ⟨t, ht, rfl⟩ := List.mem_map.1 hes
      obtain ⟨x, hx', hk⟩ := hfrom t ht
      exact List.mem_map.2 ⟨x, hx', congrArg Prod.snd hk⟩
    have h1 := (List.subperm_of_subset hnd hsub).length_le
    have h2 : (xs.map (·.exps)).dedup.length < (xs.map (·.exps)).length := by
      have hs := List.dedup_sublist (xs.map (·.exps))
      rcases Nat.lt_or_ge (xs.map (·.exps)).dedup.length (xs.map (·.exps)).length with h | h
      · exact h
      · exfalso
        apply hdup
        rw [← hs.eq_of_length_le h]
        exact List.nodup_dedup _
    simp only [List.length_map] at h1 h2
    omega
  refine ⟨poly, N, e, fun fuel rounds h1 h2 T m draws draws' p => ?_⟩
  have hnone : ∀ D : ℤ, dilatePolynomial fuel rounds poly D = none := by
    intro D
    unfold dilatePolynomial
    rw [o.vars, d fuel rounds h1 h2, Option.bind_some, dilLoop_eq D ts hnn]
    obtain ⟨s, es, hs⟩ := insertAll_count n hn ((ts.filter fun t => t.exps.sum ≠ 0).map (scaled D)) (by
      intro y hy
      obtain ⟨t, ht, rfl⟩ := List.mem_map.1 hy
      exact (a1 t (List.mem_filter.1 ht).1).2)
    rw [show insertAll (⟨0, n, none⟩ : Sum ℚ) ((ts.filter fun t => t.exps.sum ≠ 0).map (scaled D)) = some s from es, Option.map_some,
      Option.bind_some]
    simp only
    have hcnt : poly.termCount = xs.length := by
      rw [o.count]
      have : nonzero xs = xs := by
        unfold nonzero
        rw [List.filter_eq_self]
        intro x hx'
        simpa using (hx x hx').1
      rw [this]
    have hlen : ts.length = (ts.filter fun t => t.exps.sum ≠ 0).length + (ts.filter fun t => t.exps.sum = 0).length := by
      have h1 := List.length_eq_length_filter_add (l := ts) (fun t => decide (t.exps.sum = 0))
      rw [h1, Nat.add_comm]
      congr 2
      apply List.filter_congr
      intro t _
      simp
    rw [if_pos]
    left
    rw [hcnt]
    rw [List.length_map] at hs
    omega
  unfold findIntegralPoly
  cases dilatePV p with
  | none => rfl
  | some q => rw [Option.bind_some, hnone]; rfl

/-- non-vacuity: `x + x`. -/
example : ¬ (([⟨1, [1], -1⟩, ⟨1, [1], -1⟩] : List (Term ℚ)).map (·.exps)).Nodup := by decide

/-! ### C53: using one valuation object twice -/

/-- **C53, what really happens.** After an integral by triangulation, the volume reported by the same object is the volume of the
polytope dilated by the least common denominator of its vertices. -/
theorem c53_volume_after_integral (T : ℕ → VCone → List VCone) (n : ℕ) (hn0 : 0 < n) (hn : n < 1000) (cones : List VCone)
    (hv : ∀ c ∈ cones, VertexOk n c.vertex) (hT : TriangulatesPolytope T n cones)
    (xs : List (Term ℚ)) (hx : PolyIn n xs) (hdeg : ∀ x ∈ xs, x.exps.sum + n < 2 ^ 20) :
    ∃ (poly : Sum ℚ) (N : ℕ), insertAll (emptySum ℚ n) xs = some poly ∧
      ∀ fuel rounds, N ≤ fuel → N ≤ rounds → ∀ draws draws' d, ∃ r p' w,
        findIntegralPoly T fuel rounds .triangulation draws draws' poly (ofCones n cones) = some (r, p') ∧
        findVolume T .triangulation d p' = some (w, p') ∧
        (w : ℝ) = (dilationFactorVertexRays cones : ℝ) ^ n * (volume (polytope n cones)).toReal := by
  obtain ⟨poly, r, N, e, h, _⟩ := integral_polynomial_full T n hn0 hn cones hv (hT.dilate hv) xs hx hdeg
  refine ⟨poly, N, e, fun fuel rounds h1 h2 draws draws' d => ?_⟩
  obtain ⟨p', hp, w, hw, hv⟩ := h fuel rounds h1 h2 draws draws'
  exact ⟨r, p', w, hp, hw d, hv⟩

/-- **C53 restricted to integral vertices**: there the volume reported after an integral is right. What is missing: polytopes with
fractional vertices, for which the claim is false (next theorem). -/
theorem c53_integral_vertices_partial (T : ℕ → VCone → List VCone) (n : ℕ) (hn0 : 0 < n) (hn : n < 1000) (cones : List VCone)
    (hv : ∀ c ∈ cones, VertexOk n c.vertex) (hint : ∀ c ∈ cones, ∀ e ∈ c.vertex.ents, e.2 = 1) (hT : TriangulatesPolytope T n cones)
    (xs : List (Term ℚ)) (hx : PolyIn n xs) (hdeg : ∀ x ∈ xs, x.exps.sum + n < 2 ^ 20) :
    ∃ (poly : Sum ℚ) (N : ℕ), insertAll (emptySum ℚ n) xs = some poly ∧
      ∀ fuel rounds, N ≤ fuel → N ≤ rounds → ∀ draws draws' d, ∃ r p' w,
        findIntegralPoly T fuel rounds .triangulation draws draws' poly (ofCones n cones) = some (r, p') ∧
        findVolume T .triangulation d p' = some (w, p') ∧ (w : ℝ) = (volume (polytope n cones)).toReal := by
  have h1 : dilationFactorVertexRays cones = 1 := by
    unfold dilationFactorVertexRays
    have inner : ∀ es : List (ℤ × ℤ), (∀ e ∈ es, e.2 = 1) → es.foldl (fun f e => lcmPV f e.2) 1 = 1 := by
      intro es
      induction es with
      | nil => intro _; rfl
      | cons e es ih =>
        intro h
        rw [List.foldl_cons, h e (by simp)]
        exact ih fun x hx => h x (by simp [hx])
    have outer : ∀ cs : List VCone, (∀ c ∈ cs, ∀ e ∈ c.vertex.ents, e.2 = 1) →
        cs.foldl (fun f c => c.vertex.ents.foldl (fun f e => lcmPV f e.2) f) 1 = 1 := by
      intro cs
      induction cs with
      | nil => intro _; rfl
      | cons c cs ih =>
        intro h
        rw [List.foldl_cons, inner _ (h c (by simp))]
        exact ih fun x hx => h x (by simp [hx])
    exact outer cones hint
  obtain ⟨poly, N, e, h⟩ := c53_volume_after_integral T n hn0 hn cones hv hT xs hx hdeg
  refine ⟨poly, N, e, fun fuel rounds g1 g2 draws draws' d => ?_⟩
  obtain ⟨r, p', w, a, b, c⟩ := h fuel rounds g1 g2 draws draws' d
  refine ⟨r, p', w, a, b, ?_⟩
  rw [c, h1]; simp

/-- the segment from 0 to 1/2 -/
def exSegment : List VCone := [⟨ofEntries [(0, 1)], [], 1⟩, ⟨ofEntries [(1, 2)], [], 1⟩]

/-- **C53 is false in general**: a fresh object says that the segment from 0 to 1/2 has volume 1/2; after integrating `x` over it (with
the right answer 1/8), the same object says 1, and asked for the same integral again it says 1/2. -/
theorem c53_reuse_differs :
    ((insertAll (emptySum ℚ 1) [⟨1, [1], -1⟩]).bind fun poly =>
      (findVolume (fun _ c => [c]) .triangulation [] (ofCones 1 exSegment)).bind fun v0 =>
      (findIntegralPoly (fun _ c => [c]) 9 9 .triangulation [] [] poly (ofCones 1 exSegment)).bind fun a =>
      (findVolume (fun _ c => [c]) .triangulation [] a.2).bind fun v =>
      (findIntegralPoly (fun _ c => [c]) 9 9 .triangulation [] [] poly a.2).map fun b => (v0.1, a.1, v.1, b.1)) =
    some (1 / 2, 1 / 8, 1, 1 / 2) := by decide +kernel

/-! ### C54: homogenized input and the cone method -/

/-- **C54 (a defect).** For a polytope given by homogeneous points, the volume by the cone method is reported as 0, whatever the polytope
and whatever numbers are drawn (no tangent cones are known and the sum is empty). -/
theorem c54_homogenized_cone_volume_zero (T : ℕ → VCone → List VCone) (k : ℕ) (rays : List (List ℤ)) (draws : List ℕ)
    (hd : k ≤ draws.length) :
    ∃ p', findVolume T .cone draws (ofHomogenized k rays) = some (0, p') := by
  refine ⟨ofHomogenized k rays, ?_⟩
  unfold findVolume volumeLawrence triangulateVertexRays ofHomogenized
  simp only [Option.isSome_none, Bool.false_eq_true, if_false, Option.getD_none, triangulateLoop]
  rw [lawVolSearch, if_neg (by omega), lawVolLoop]
  simp

/-- the square [0,1]² has volume 1, and the other method says so. -/
theorem c54_witness : (findVolume (fun _ _ => [⟨ofDim 3, [[0, 0, 1], [1, 0, 1], [0, 1, 1]], 1⟩, ⟨ofDim 3, [[1, 1, 1], [1, 0, 1], [0, 1, 1]], 1⟩])
    .triangulation [] (ofHomogenized 3 [[0, 0, 1], [1, 0, 1], [0, 1, 1], [1, 1, 1]])).map Prod.fst = some 1 := by decide +kernel

end Verif.Valuation
