import Verif.CddV.Props

/-!
# Polytopes with few vertices, unbounded polyhedra, and counting (C88)
-/

namespace Verif.CddV

open Verif.Barvinok Verif.Barvinok.Spec Verif.Brion Verif.Ti2 Verif.Regular Verif.ExpSubst

variable {n m : ℕ} {ineqs : List (ℤ × Vec n)} {rows : List (List ℚ)} {ead : List Tok}

theorem isClosed_polyhedron (ineqs : List (ℤ × Vec n)) : IsClosed (Polyhedron ineqs) := by
  rw [polyhedron_eq]
  have : Poly (normals ineqs) (fun i => (sides ineqs i : ℝ)) = ⋂ i, {x | dot (normals ineqs i) x ≤ (sides ineqs i : ℝ)} := by
    ext x
    simp [Poly]
  rw [this]
  refine isClosed_iInter fun i => isClosed_le ?_ continuous_const
  unfold dot
  fun_prop

/-- A bounded polyhedron that is not empty has a vertex. -/
theorem exists_vertex (hb : Bornology.IsBounded (Polyhedron ineqs)) (hne : (Polyhedron ineqs).Nonempty) : ((Polyhedron ineqs).extremePoints ℝ).Nonempty :=
  (Metric.isCompact_of_isClosed_isBounded (isClosed_polyhedron ineqs) hb).extremePoints_nonempty hne

theorem lattice_mem (z : Vec n) : (fun k => (z k : ℝ)) ∈ Polyhedron ineqs ↔ ∀ q ∈ ineqs, 0 ≤ q.1 + ∑ k, q.2 k * z k := by
  show (∀ q ∈ ineqs, 0 ≤ (q.1 : ℝ) + dot q.2 fun k => (z k : ℝ)) ↔ _
  refine forall_congr' fun q => imp_congr_right fun _ => ?_
  have : (q.1 : ℝ) + dot q.2 (fun k => (z k : ℝ)) = ((q.1 + ∑ k, q.2 k * z k : ℤ) : ℝ) := by
    unfold dot
    push_cast
    rfl
  rw [this]
  exact_mod_cast Iff.rfl

/-- A bounded polyhedron with one vertex is a point. -/
theorem single_point (v : Fin n → ℚ) (hvs : IsVertexList (normals ineqs) (sides ineqs) [v]) (hb : Bornology.IsBounded (Polyhedron ineqs)) :
    Polyhedron ineqs = {real v} := by
  have hv : real v ∈ Polyhedron ineqs := by
    rw [polyhedron_eq]
    exact ((hvs.mem _).1 ⟨v, List.mem_cons_self, rfl⟩).1
  have hr : IsRayList (tangent (normals ineqs) (sides ineqs) v) [] [] :=
    edges_rayList [v] hvs (recession_zero hb ⟨_, hv⟩) v List.mem_cons_self [] List.nodup_nil [] (fun _ _ _ => False) .nil (by simp)
      (fun _ _ _ _ _ h _ => h.elim) (by
        intro w hw he
        rw [List.mem_singleton] at hw
        exact absurd hw.symm he.1)
  have hg := generated_tangent ineqs v [] hr
  refine Set.eq_singleton_iff_unique_mem.2 ⟨hv, fun x hx => ?_⟩
  have hx' : x - real v ∈ tangent (normals ineqs) (sides ineqs) v := sub_mem_tangent (by rw [← polyhedron_eq]; exact hx)
  rw [← hg, generated_iff] at hx'
  have h0 := hx' (x - real v) (by simp)
  have h1 : ∀ k ∈ Finset.univ, (x - real v) k * (x - real v) k = 0 :=
    (Finset.sum_eq_zero_iff_of_nonneg fun k _ => mul_self_nonneg _).1 (le_antisymm h0 (Finset.sum_nonneg fun k _ => mul_self_nonneg _))
  funext k
  have := mul_self_eq_zero.1 (h1 k (Finset.mem_univ k))
  simpa [sub_eq_zero] using this

/-- **C88, few vertices.** If a bounded polyhedron has at most one vertex, no cones are computed; the number written is the number of its integer points. -/
theorem c88_few_vertices (hc : CddOk ineqs rows ead) (hb : Bornology.IsBounded (Polyhedron ineqs)) (h1 : rows.length ≤ 1)
    (S : List (Vec n)) (hS : S.Nodup) (hmem : ∀ z, z ∈ S ↔ ∀ q ∈ ineqs, 0 ≤ q.1 + ∑ k, q.2 k * z k) :
    (computeVertexCones rows ead : Outcome n) = .done (some S.length) := by
  have hnd := no_direction hc hb
  have hvs := hc.vertices hnd
  match rows, h1 with
  | [], _ =>
    have hS0 : S = [] := by
      rw [List.eq_nil_iff_forall_not_mem]
      intro z hz
      obtain ⟨x, hx⟩ := exists_vertex hb ⟨_, lattice_mem z |>.2 ((hmem z).1 hz)⟩
      rw [polyhedron_eq] at hx
      obtain ⟨v, hv, -⟩ := (hvs.mem x).2 hx
      simp at hv
    rw [hS0]
    rfl
  | [row], _ =>
    have hl := hc.length row List.mem_cons_self
    have h1 := (hc.lead row List.mem_cons_self).resolve_left (hnd row List.mem_cons_self)
    cases row with
    | nil => simp at h1
    | cons q qs =>
      simp only [List.head?_cons, Option.some.injEq] at h1
      subst h1
      have hlen : qs.length = n := by simpa using hl
      have hP := single_point _ hvs hb
      have hpt : ∀ k : Fin n, (rowPoint (1 :: qs) : Fin n → ℚ) k = qs[(k : ℕ)] := by
        intro k
        unfold rowPoint
        rw [List.getD_cons_succ, List.getD_cons_zero, div_one, List.getD_eq_getElem _ _ (by rw [hlen]; exact k.2)]
      have hz : ∀ z, z ∈ S ↔ ∀ k : Fin n, (z k : ℚ) = qs[(k : ℕ)] := by
        intro z
        rw [hmem, ← lattice_mem, hP, Set.mem_singleton_iff, funext_iff]
        refine forall_congr' fun k => ?_
        rw [← hpt]
        unfold real
        exact_mod_cast Iff.rfl
      have e : (computeVertexCones [1 :: qs] ead : Outcome n) = oneRow ('\n' :: printRow (1 :: qs)) := rfl
      rw [e, oneRow_one]
      congr 2
      by_cases h : ∃ q ∈ qs, q.den ≠ 1
      · rw [if_pos h]
        obtain ⟨q, hq, hd⟩ := h
        have : S = [] := by
          rw [List.eq_nil_iff_forall_not_mem]
          intro z hzS
          obtain ⟨k, hk, rfl⟩ := List.getElem_of_mem hq
          have := (hz z).1 hzS ⟨k, by omega⟩
          simp only at this
          rw [← this] at hd
          exact hd (Rat.den_intCast _)
        rw [this]
        rfl
      · rw [if_neg h]
        push Not at h
        have hint : ∀ k : Fin n, ((qs[(k : ℕ)].num : ℤ) : ℚ) = qs[(k : ℕ)] := fun k => (Rat.den_eq_one_iff _).1 (h _ (List.getElem_mem _))
        have : S = [fun k : Fin n => qs[(k : ℕ)].num] := by
          have hmem1 : (fun k : Fin n => qs[(k : ℕ)].num) ∈ S := (hz _).2 hint
          have hall : ∀ z ∈ S, z = fun k : Fin n => qs[(k : ℕ)].num := by
            intro z hzS
            funext k
            have := (hz z).1 hzS k
            rw [← hint k] at this
            exact_mod_cast this
          exact List.eq_replicate_of_mem hall |>.trans (by
            have : S.length = 1 := by
              refine le_antisymm ?_ (List.length_pos_of_mem hmem1)
              rw [List.eq_replicate_of_mem hall, List.nodup_replicate] at hS
              exact hS
            rw [this]
            rfl)
        rw [this]
        rfl

/-- **C88, unbounded polyhedra.** If the polyhedron is unbounded, the program ends and the number written is 0; or nothing is written, if cdd gives one row only. -/
theorem c88_unbounded (hc : CddOk ineqs rows ead) (hb : ¬ Bornology.IsBounded (Polyhedron ineqs)) (hne : (Polyhedron ineqs).Nonempty) :
    (computeVertexCones rows ead : Outcome n) = .done (if rows.length = 1 then none else some 0) := by
  obtain ⟨row, hr, h0⟩ := hc.directions.2 ⟨hne, hb⟩
  match rows, hr with
  | [row'], hr =>
    obtain rfl := List.mem_singleton.1 hr
    cases row with
    | nil => simp at h0
    | cons q qs =>
      simp only [List.head?_cons, Option.some.injEq] at h0
      subst h0
      exact oneRow_zero qs
  | row₁ :: row₂ :: rest, hr =>
    rw [if_neg (by simp)]
    show (match readVertices (row₁ :: row₂ :: rest) with
      | none => Outcome.done (some 0)
      | some vertices => readEad vertices 0 vertices ead) = _
    rw [(readVertices_none _).2 ⟨row, hr, h0⟩]

/-! ## Counting -/

section
variable {ineqs : List (ℤ × Vec (m + 1))}

/-- What is triangulated and counted. -/
theorem countCdd_eq (hc : CddOk ineqs rows ead) (hb : Bornology.IsBounded (Polyhedron ineqs)) (h2 : 2 ≤ rows.length)
    (alg : Rays) (N : Ntl (m + 1)) (X : Smith.Xgcd) (irr : Cone (m + 1) → Fin (m + 1) → ℚ) (maxDet : ℤ) (fuel : ℕ)
    (tries : ℕ) (tris : ℕ → List (Vec (m + 1)) → ℕ → Except Fail (List (List (Vec (m + 1))) × ℕ)) (guesses : ℕ → Vec (m + 1)) :
    countCdd rows ead alg N X irr maxDet fuel ineqs tries tris guesses =
      match triangulateAndCount N X .dual irr maxDet fuel ((rows.map rowPoint).map fun v => (v, computeTight ineqs v [])) tries tris guesses with
      | .error e => .failed e
      | .ok k => .number k := by
  obtain ⟨cones, hco, hver, hvs, hcs⟩ := c88_cones (Nat.succ_pos m) hc hb h2
  have hcomp : ∀ C ∈ cones, (tightFacets ineqs C).facets = computeTight ineqs C.vertex [] := by
    intro C hC
    unfold tightFacets
    rw [(hcs C hC).2.2.2.1]
  have hne : ∀ C ∈ cones.map (tightFacets ineqs), C.facets ≠ [] := by
    intro C' hC' h0
    obtain ⟨C, hC, rfl⟩ := List.mem_map.1 hC'
    rw [hcomp C hC] at h0
    have hx := (hvs.mem _).1 ⟨C.vertex, List.mem_map_of_mem hC, rfl⟩
    have hg := normalRays_tight ineqs [C.vertex] (C.vertex, computeTight ineqs C.vertex []) (by simp)
    have := spans_of_vertex (normals ineqs) (sides ineqs) C.vertex hx _ hg (fun _ => 1) (by simp only [h0]; simp)
    have h1 := congrFun this 0
    norm_num at h1
  have h1 : (cones.map (tightFacets ineqs)).map (tightFacets ineqs) = cones.map (tightFacets ineqs) := by
    conv_rhs => rw [← List.map_id (cones.map (tightFacets ineqs))]
    exact List.map_congr_left fun C hC => tightFacets_id ineqs C (hne C hC)
  unfold countCdd
  rw [hco]
  simp only [h1]
  rw [dualizeCones_swap alg _ hne]
  simp only [List.map_map]
  have : cones.map ((fun C : GCone (m + 1) => (C.vertex, C.rays)) ∘ GCone.swap ∘ tightFacets ineqs) =
      rows.map ((fun v => (v, computeTight ineqs v [])) ∘ rowPoint) := by
    rw [← List.map_map (f := rowPoint), ← hver, List.map_map]
    refine List.map_congr_left fun C hC => ?_
    show (C.vertex, (tightFacets ineqs C).facets) = (C.vertex, computeTight ineqs C.vertex [])
    rw [hcomp C hC]
  rw [this]
  rfl

/-- **C88, counting.** For a bounded polyhedron, with the default way to compute the vertex cones and the default decomposition, a number reported is the number of
integer points satisfying the inequalities. -/
theorem c88_count (hc : CddOk ineqs rows ead) (hb : Bornology.IsBounded (Polyhedron ineqs))
    (alg : Rays) (N : Ntl (m + 1)) (hN : N.Ok) (X : Smith.Xgcd) (irr : Cone (m + 1) → Fin (m + 1) → ℚ)
    (maxDet : ℤ) (h0 : maxDet ≠ 0) (hmax : maxDet ≤ Piped.intMax) (fuel : ℕ) (hfuel : maxDet < fuel)
    (S : List (Vec (m + 1))) (hS : S.Nodup) (hmem : ∀ z, z ∈ S ↔ ∀ q ∈ ineqs, 0 ≤ q.1 + ∑ k, q.2 k * z k)
    (dd : DD) (hdd : DDOk dd) (ralg : RayAlg) (hra : RayAlgOk ralg) (lindep : List (Vec (m + 1)) → List ℤ → Bool) (hl : LindepOk lindep)
    (P : TriParams (m + 1)) (hM : 1 ≤ P.maxHeight) (hp : P.prescribed = none) (g : ℕ → Rng) (hg : ∀ t, (g t).Ok) (tfuel tries : ℕ)
    (guesses : ℕ → Vec (m + 1)) (r : ℤ)
    (h : countCdd rows ead alg N X irr maxDet fuel ineqs tries (fun t => triangulateCone dd ralg lindep P (g t) tfuel) guesses = .number r) : r = S.length := by
  by_cases h2 : 2 ≤ rows.length
  · rw [countCdd_eq hc hb h2] at h
    cases ht : triangulateAndCount N X .dual irr maxDet fuel ((rows.map rowPoint).map fun v => (v, computeTight ineqs v [])) tries
        (fun t => triangulateCone dd ralg lindep P (g t) tfuel) guesses with
    | error e => rw [ht] at h; cases h
    | ok k =>
      rw [ht] at h
      obtain rfl := Report.number.inj h
      exact c75_count_inequalities N hN X irr maxDet h0 hmax fuel hfuel ineqs _ (hc.vertices (no_direction hc hb)) S hS hmem dd hdd ralg hra lindep hl P hM hp g hg
        tfuel tries guesses k ht
  · unfold countCdd at h
    rw [c88_few_vertices hc hb (by omega) S hS hmem] at h
    exact (Report.number.inj h).symm

/-- **C88, an answer is found.** For a bounded polyhedron the program ends with the number as soon as a triangulation goes through and its random vector is
generic (at once, if there is at most one vertex). -/
theorem c88_total (hc : CddOk ineqs rows ead) (hb : Bornology.IsBounded (Polyhedron ineqs))
    (alg : Rays) (N : Ntl (m + 1)) (hN : N.Ok) (hsv : ShortVectors N) (X : Smith.Xgcd) (irr : Cone (m + 1) → Fin (m + 1) → ℚ)
    (maxDet : ℤ) (h1 : 1 ≤ maxDet) (hmax : maxDet ≤ Piped.intMax) (fuel : ℕ) (hfuel : maxDet < fuel)
    (S : List (Vec (m + 1))) (hS : S.Nodup) (hmem : ∀ z, z ∈ S ↔ ∀ q ∈ ineqs, 0 ≤ q.1 + ∑ k, q.2 k * z k)
    (tris : ℕ → List (Vec (m + 1)) → ℕ → Except Fail (List (List (Vec (m + 1))) × ℕ)) (ht : ∀ t, TriangulationOk (tris t)) (T : ℕ)
    (htot : ∀ t ≤ T, ∀ L : List (Vec (m + 1)), Spans L → ∀ k, ∃ parts k', tris t L k = .ok (parts, k') ∧ ∀ p ∈ parts, p.length = m + 1) :
    ∃ D : ℕ → List (Cone (m + 1)), (∀ t ≤ T, ∃ lam, GenericFor lam (D t)) ∧ ∀ (guesses : ℕ → Vec (m + 1)), GenericFor (guesses T) (D T) →
      ∀ tries, T < tries → countCdd rows ead alg N X irr maxDet fuel ineqs tries tris guesses = .number S.length := by
  by_cases h2 : 2 ≤ rows.length
  · have hvl := hc.vertices (no_direction hc hb)
    have hnr := normalRays_tight ineqs (rows.map rowPoint)
    have hfst : (((rows.map rowPoint).map fun v => (v, computeTight ineqs v [])).map (·.1)) = rows.map rowPoint := by
      rw [List.map_map]
      conv_rhs => rw [← List.map_id (rows.map rowPoint)]
      rfl
    obtain ⟨D, hD, h⟩ := c75_count_total N hN hsv X irr maxDet h1 hmax fuel hfuel (normals ineqs) (sides ineqs) S
      ⟨hS, fun z => by rw [hmem, lattice_iff]⟩ ((rows.map rowPoint).map fun v => (v, computeTight ineqs v [])) (by rw [hfst]; exact hvl) hnr tris ht T
      (fun t hT c hc' k => htot t hT c.2 (by
        refine spans_of_vertex (normals ineqs) (sides ineqs) c.1 ?_ c.2 (hnr c hc')
        refine (hvl.mem _).1 ⟨c.1, ?_, rfl⟩
        rw [← hfst]
        exact List.mem_map_of_mem hc') k)
    refine ⟨D, hD, fun guesses hg tries hT => ?_⟩
    rw [countCdd_eq hc hb h2, h guesses hg tries hT]
  · refine ⟨fun _ => [], fun t _ => ⟨0, fun C hC => by cases hC⟩, fun guesses _ tries _ => ?_⟩
    unfold countCdd
    rw [c88_few_vertices hc hb (by omega) S hS hmem]

/-- **C88, violation.** For every unbounded polyhedron, whatever its integer points, the program reports the number 0 or no number. -/
theorem c88_unbounded_violation (hc : CddOk ineqs rows ead) (hb : ¬ Bornology.IsBounded (Polyhedron ineqs)) (hne : (Polyhedron ineqs).Nonempty)
    (alg : Rays) (N : Ntl (m + 1)) (X : Smith.Xgcd) (irr : Cone (m + 1) → Fin (m + 1) → ℚ) (maxDet : ℤ) (fuel : ℕ)
    (tries : ℕ) (tris : ℕ → List (Vec (m + 1)) → ℕ → Except Fail (List (List (Vec (m + 1))) × ℕ)) (guesses : ℕ → Vec (m + 1)) :
    countCdd rows ead alg N X irr maxDet fuel ineqs tries tris guesses = if rows.length = 1 then .noNumber else .number 0 := by
  unfold countCdd
  rw [c88_unbounded hc hb hne]
  by_cases h : rows.length = 1
  · rw [if_pos h, if_pos h]
  · rw [if_neg h, if_neg h]

end


end Verif.CddV
