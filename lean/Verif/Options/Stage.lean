import Verif.Options.Model
import Verif.Whole.VolumeLattice

/-!
# C96: the cones, for every combination of options
-/

namespace Verif.Options

open Verif.Barvinok Verif.Barvinok.Spec Verif.Brion Verif.Ti2 Verif.Regular Verif.Irrational Verif.Preprocess Verif.Whole
open Verif.ExpSubst (Fail)

variable {n d : ℕ}

/-! ## A point that meets the inequalities strictly -/

theorem projectRows_strict {P : Empty.Problem n} (E I : List (Row n)) (hsplit : Split P E I) (hpoint : E.length = n → I = [])
    (x : Fin n → ℝ) (hx : x ∈ Polyhedron (both E I)) (hpos : ∀ r ∈ I, 0 < (r.b : ℝ) + dot r.a x) (hermite : ℕ) {l : List (Row d)}
    (h : projectRows hermite n E I = .rows d l) : ∃ y : Fin d → ℝ, ∀ r ∈ l, 0 < (r.b : ℝ) + dot r.a y := by
  unfold projectRows at h
  by_cases hE : E = []
  · rw [if_pos hE] at h
    cases h
    exact ⟨x, hpos⟩
  rw [if_neg hE] at h
  have hind := hsplit.independent
  by_cases hI : I = []
  · subst hI
    exfalso
    by_cases hlen : E.length = n
    · rw [no_inequalities hlen _ _ _ hind.int] at h
      cases h
    · rw [(c67_not_bounded (fuel := hermite) (eqs := fun j : Fin E.length => E.get j) 0 1 (lt_of_le_of_ne hind.le hlen)).1] at h
      cases h
  have hlt : E.length < n := lt_of_le_of_ne hind.le fun hh => hI (hpoint hh)
  rcases preprocess_three (fuel := hermite) (eqs := fun j : Fin E.length => E.get j) 0 1 hI hlt.le with h' | h' | ⟨d', out, p, B, c, hrun⟩
  · rw [h'] at h; cases h
  · rw [h'] at h; cases h
  · rw [hrun] at h
    cases h
    have hco := reduced_coordinates hI hlt.le hind hrun
    rw [← hco.points] at hx
    obtain ⟨y, -, rfl⟩ := hx
    exact ⟨y, newRows_strict y I _ (reduced_newRows hI hlt.le hrun) hpos⟩

/-- Some point meets all inequalities in hand strictly. -/
theorem fileRows_strict {T : Tools} (hT : T.Ok) (hst : CanonicalizeStrict T.canonicalize) (P : Empty.Problem n) (h : P.Ok) (hs : Small P)
    (h0 : P.rows ≠ []) (hf : P.nonnegFirst = false) (hne : P.Solutions.Nonempty) (hermite : ℕ) {l : List (Row d)} (hl : fileRows T hermite (text P) = .rows d l) :
    ∃ y : Fin d → ℝ, ∀ r ∈ l, 0 < (r.b : ℝ) + dot r.a y := by
  obtain ⟨h1, h2⟩ := Empty.c86_decides T.lp hT.lp P h (Or.inl h0) (by rw [hf]; simp)
  have hne' : (Sols n (part (matrix P) true) (part (matrix P) false)).Nonempty := by rw [sols_matrix P h]; exact hne
  have hc : Canonical n (matrix P) (T.canonicalize (matrix P)) := hT.canonicalize n (matrix P) rfl rfl (matrix_length P) hne'
  obtain ⟨x, hx, hpos⟩ := hst n (matrix P) rfl rfl (matrix_length P) hne'
  have hcols : (T.canonicalize (matrix P)).colsize - 1 = n := by rw [hc.cols]; rfl
  have hint : ∀ r ∈ (T.canonicalize (matrix P)).rows, Integral r := fun r hr => matrix_integral P r (hc.rows r hr)
  have hsplit := split_canonical P h hc
  unfold fileRows at hl
  rw [tokens_text P hf, h1 hne, read_text P h hs.rows hs.cols hs.nonneg] at hl
  have hl' : projectRows hermite n ((part (T.canonicalize (matrix P)) true).map (intRow n)) ((part (T.canonicalize (matrix P)) false).map (intRow n)) = .rows d l := by
    rw [← matrixRows_eq hcols hint]
    exact hl
  have hpart : ∀ e, ∀ r ∈ part (T.canonicalize (matrix P)) e, Integral r := fun e r hr => hint r (part_mem hr)
  refine projectRows_strict _ _ hsplit (hsplit.point hne) x (by rw [← sols_both (hpart true) (hpart false)]; exact hx) ?_ hermite hl'
  intro r hr
  obtain ⟨q, hq, rfl⟩ := List.mem_map.1 hr
  rw [← value_intRow (hpart false q hq)]
  exact hpos q hq

/-! ## The cones -/

/-- With a point that meets the inequalities strictly, the linear part of a tight inequality is not 0. -/
theorem tight_ne (rows : List (Row (d + 1))) (hst : ∃ y : Fin (d + 1) → ℝ, ∀ r ∈ rows, 0 < (r.b : ℝ) + dot r.a y) (v : Fin (d + 1) → ℚ)
    (q : ℤ × Vec (d + 1)) (hq : q ∈ pairs rows) (ht : (q.1 : ℚ) + ∑ k, (q.2 k : ℚ) * v k = 0) : q.2 ≠ 0 := by
  intro h0
  obtain ⟨y, hy⟩ := hst
  obtain ⟨r, hr, rfl⟩ := List.mem_map.1 hq
  have h1 := hy r hr
  have hz : r.a = 0 := h0
  have hb : r.b = 0 := by
    dsimp only at ht
    rw [hz] at ht
    simpa using ht
  rw [hb, hz] at h1
  simp [dot] at h1

/-- The rest of the program gets what it needs. -/
structure Prepared (T : Tools) (rows : List (Row (d + 1))) (cones : List (GCone (d + 1))) : Prop where
  dual : ∃ cs, dualizeCones T.rays ((cones.map (tightFacets (pairs rows))).map (tightFacets (pairs rows))) = .ok cs ∧
    IsVertexList (normals (pairs rows)) (sides (pairs rows)) ((cs.map fun C => (C.vertex, C.rays)).map (·.1)) ∧
      NormalRays (normals (pairs rows)) (sides (pairs rows)) (cs.map fun C => (C.vertex, C.rays))
  primal : (∃ y : Fin (d + 1) → ℝ, ∀ r ∈ rows, 0 < (r.b : ℝ) + dot r.a y) → ∃ out, allPrimalCones T.rays (cones.map (tightFacets (pairs rows))) = .ok out ∧
    IsVertexList (normals (pairs rows)) (sides (pairs rows)) (out.map (·.vertex)) ∧ ∀ D ∈ out, AtVertex (normals (pairs rows)) (sides (pairs rows)) D

theorem prepared_cdd {T : Tools} (hT : T.Ok) (rows : List (Row (d + 1))) (hb : Bornology.IsBounded (Polyhedron (pairs rows)))
    (h2 : 2 ≤ (T.vertices (d + 1) (pairs rows)).1.length) :
    ∃ cones : List (GCone (d + 1)), CddV.computeVertexCones (T.vertices (d + 1) (pairs rows)).1 (T.vertices (d + 1) (pairs rows)).2 = .cones cones ∧
      Prepared T rows cones := by
  have hc := hT.vertices (d + 1) (pairs rows)
  obtain ⟨cones, hco, hver, hvs, hcs⟩ := CddV.c88_cones (Nat.succ_pos d) hc hb h2
  refine ⟨cones, hco, ?_, fun hst => ?_⟩
  · have hcomp : ∀ C ∈ cones, (tightFacets (pairs rows) C).facets = computeTight (pairs rows) C.vertex [] := by
      intro C hC
      unfold tightFacets
      rw [(hcs C hC).2.2.2.1]
    have hne : ∀ C ∈ cones.map (tightFacets (pairs rows)), C.facets ≠ [] := by
      intro C' hC' h0
      obtain ⟨C, hC, rfl⟩ := List.mem_map.1 hC'
      rw [hcomp C hC] at h0
      have hx := (hvs.mem _).1 ⟨C.vertex, List.mem_map_of_mem hC, rfl⟩
      have hg := normalRays_tight (pairs rows) [C.vertex] (C.vertex, computeTight (pairs rows) C.vertex []) (by simp)
      have := spans_of_vertex (normals (pairs rows)) (sides (pairs rows)) C.vertex hx _ hg (fun _ => 1) (by simp only [h0]; simp)
      have h1 := congrFun this 0
      norm_num at h1
    have h1 : (cones.map (tightFacets (pairs rows))).map (tightFacets (pairs rows)) = cones.map (tightFacets (pairs rows)) := by
      conv_rhs => rw [← List.map_id (cones.map (tightFacets (pairs rows)))]
      exact List.map_congr_left fun C hC => tightFacets_id (pairs rows) C (hne C hC)
    refine ⟨_, by rw [h1]; exact dualizeCones_swap T.rays _ hne, ?_⟩
    have e : ((cones.map (tightFacets (pairs rows))).map GCone.swap).map (fun C => (C.vertex, C.rays)) =
        (cones.map (·.vertex)).map fun v => (v, computeTight (pairs rows) v []) := by
      rw [List.map_map, List.map_map, List.map_map]
      refine List.map_congr_left fun C hC => ?_
      show (C.vertex, (tightFacets (pairs rows) C).facets) = (C.vertex, computeTight (pairs rows) C.vertex [])
      rw [hcomp C hC]
    rw [e]
    refine ⟨?_, normalRays_tight (pairs rows) (cones.map (·.vertex))⟩
    rw [List.map_map]
    conv => arg 3; change List.map id (cones.map (·.vertex)); rw [List.map_id]
    exact hvs
  · obtain ⟨ho, hkey⟩ := CddV.c88_allPrimal hc hb h2 T.rays cones hco
    refine ⟨_, ho, ?_, fun D hD => ?_⟩
    · rw [List.map_map]
      exact hvs
    · obtain ⟨h1, h3, h4⟩ := hkey D hD
      obtain ⟨C, hC, rfl⟩ := List.mem_map.1 hD
      have htan := c69_tight_tangent (pairs rows) C.vertex
      have hgen := (hcs C hC).2.2.1
      obtain ⟨y0, hy0⟩ := id hst
      refine ⟨fun h => ?_, fun f hf hf0 => ?_, fun y => ?_, hgen, spans_rays (pairs rows) ⟨y0, interior_strict rows y0 hy0⟩ C.vertex _ hgen⟩
      · rw [h] at h3
        simp at h3
      · rw [h4] at hf
        have hf'' : f ∈ {f | f ∈ computeTight (pairs rows) C.vertex []} := hf
        rw [htan.2] at hf''
        obtain ⟨i, ht, hi⟩ := hf''
        refine tight_ne rows hst C.vertex ((pairs rows).get i) (List.get_mem _ _) ?_ ?_
        · have h5 : ∑ k, ((normals (pairs rows) i) k : ℚ) * C.vertex k = sides (pairs rows) i := ht
          have e : ∑ k, ((normals (pairs rows) i) k : ℚ) * C.vertex k = - ∑ k, (((pairs rows).get i).2 k : ℚ) * C.vertex k := by
            rw [← Finset.sum_neg_distrib]
            exact Finset.sum_congr rfl fun k _ => by simp [normals]
          have e2 : sides (pairs rows) i = ((pairs rows).get i).1 := rfl
          rw [e, e2] at h5
          linarith
        · rw [← neg_eq_zero]
          rw [← hf0, ← hi]
          rfl
      · rw [h4]
        exact htan.1 y

theorem prepared_ti2 {T : Tools} (ha : RaysOk T.rays) (rows : List (Row (d + 1))) (hb : Bornology.IsBounded (Polyhedron (pairs rows)))
    (hne : (Polyhedron (pairs rows)).Nonempty) :
    ∃ cones : List (GCone (d + 1)), vertexCones T.rays (pairs rows) = .ok (false, cones) ∧ Prepared T rows cones := by
  have hdir : ∀ y : Fin (d + 1) → ℝ, (∀ q ∈ pairs rows, 0 ≤ dot q.2 y) → y = 0 := by
    intro y hy
    by_contra h
    obtain ⟨x, hx⟩ := hne
    exact unbounded_of_recession ⟨h, hy⟩ hx hb
  have hnl : NoLine (pairs rows) := fun y hy => hdir y fun q hq => (hy q hq).ge
  obtain ⟨⟨unbounded, cones⟩, hv⟩ := (c83_assert T.rays ha (pairs rows)).2 hnl
  have hf : unbounded = false := by
    by_contra h
    obtain ⟨y, hy, hq⟩ := (c83_flag T.rays ha (pairs rows) unbounded cones hv).1 (by simpa using h)
    exact hy (hdir y hq)
  subst hf
  have hne' := facets_ne_nil T.rays ha (pairs rows) false cones hv
  obtain ⟨hvl, hnr⟩ := vertexList_of T.rays ha (pairs rows) false cones hv
  have h1 : cones.map (tightFacets (pairs rows)) = cones := by
    rw [List.map_congr_left (g := id) fun C hC => tightFacets_id (pairs rows) C (hne' C hC), List.map_id]
  refine ⟨cones, hv, ?_, fun hst => ?_⟩
  · refine ⟨cones.map GCone.swap, by rw [h1, h1]; exact dualizeCones_swap T.rays cones hne', ?_⟩
    have e : (cones.map GCone.swap).map (fun C => (C.vertex, C.rays)) = cones.map fun C => (C.vertex, C.facets) := by
      rw [List.map_map]
      rfl
    rw [e]
    exact ⟨hvl, hnr⟩
  · obtain ⟨out, ho, hfa⟩ := c84_allPrimal T.rays ha (pairs rows) false cones hv
    obtain ⟨-, -, hc⟩ := c83_cones T.rays ha (pairs rows) false cones hv
    have hver : out.map (·.vertex) = cones.map (·.vertex) := by
      clear ho hvl hnr h1 hne' hv hc
      induction hfa with
      | nil => rfl
      | cons h1 _ ih => rw [List.map_cons, List.map_cons, h1.1, ih]
    refine ⟨out, ho, ?_, fun D hD => ?_⟩
    · rw [hver]
      rw [List.map_map] at hvl
      exact hvl
    · obtain ⟨i, hi, e⟩ := List.getElem_of_mem hD
      have hl := hfa.length_eq
      obtain ⟨h1, h2, h3, -, h5, -⟩ := (List.forall₂_iff_get.1 hfa).2 i (by rw [hl]; exact hi) hi
      have hC := List.get_mem cones ⟨i, by rw [hl]; exact hi⟩
      have e' : out.get ⟨i, hi⟩ = D := e
      rw [e'] at h1 h2 h3 h5
      obtain ⟨y0, hy0⟩ := id hst
      rw [← h1] at h3 h5
      refine ⟨by rw [h2]; exact hne' _ hC, fun f hf' hf0 => ?_, h3, h5, spans_rays (pairs rows) ⟨y0, interior_strict rows y0 hy0⟩ _ _ h5⟩
      rw [h2] at hf'
      obtain ⟨q, hq, ht, hp⟩ := ((hc _ hC).1 f).1 hf'
      refine tight_ne rows hst _ q hq ht ?_
      rcases hp with hp | ⟨⟨g, -, hg⟩, -⟩
      · exact neg_eq_zero.1 hp.1
      · rw [← neg_eq_zero]
        funext k
        rw [← hg k, hf0]
        simp

/-- The vertex cones for a bounded polyhedron with a point: the program ends with the right number, or the cones are right. -/
theorem stage_cases {T : Tools} (hT : T.Ok) (ha : RaysOk T.rays) (tool : VertexTool) (rows : List (Row (d + 1))) (hb : Bornology.IsBounded (Polyhedron (pairs rows)))
    (hne : (Polyhedron (pairs rows)).Nonempty) :
    vertexStage T tool d rows = .error (.number (feasible rows).ncard) ∨ ∃ cones, vertexStage T tool d rows = .ok (false, cones) ∧ Prepared T rows cones := by
  cases tool with
  | cdd =>
    by_cases h2 : 2 ≤ (T.vertices (d + 1) (pairs rows)).1.length
    · obtain ⟨cones, h, hp⟩ := prepared_cdd hT rows hb h2
      refine Or.inr ⟨cones, ?_, hp⟩
      unfold vertexStage
      simp only [h]
    · left
      obtain ⟨S, hS, hmem, hlen⟩ := feasible_list rows hb
      have := CddV.c88_few_vertices (hT.vertices (d + 1) (pairs rows)) hb (by omega) S hS hmem
      unfold vertexStage
      simp only [this, hlen]
  | fourTiTwo =>
    obtain ⟨cones, h, hp⟩ := prepared_ti2 ha rows hb hne
    refine Or.inr ⟨cones, ?_, hp⟩
    unfold vertexStage
    simp only [h]

end Verif.Options
