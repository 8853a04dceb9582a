import Verif.CddV.Count
import Verif.Ti2.Primal

/-!
# The irrational all-primal variant with cones from cdd, and the contract of cdd can be met (C88)
-/

namespace Verif.CddV

open Verif.Barvinok Verif.Barvinok.Spec Verif.Brion Verif.Ti2 Verif.Regular Verif.ExpSubst

variable {n m : ℕ} {rows : List (List ℚ)} {ead : List Tok}

/-- **C88, the irrational all-primal variant.** With the cones from cdd and their facets from the tight inequalities nothing needs to be dualized, and the assertion on
the number of facets holds. -/
theorem c88_allPrimal {ineqs : List (ℤ × Vec (m + 1))} (hc : CddOk ineqs rows ead) (hb : Bornology.IsBounded (Polyhedron ineqs)) (h2 : 2 ≤ rows.length) (alg : Rays)
    (cones : List (GCone (m + 1))) (hco : computeVertexCones rows ead = .cones cones) :
    allPrimalCones alg (cones.map (tightFacets ineqs)) = .ok (cones.map (tightFacets ineqs)) ∧
      ∀ C ∈ cones.map (tightFacets ineqs), C.rays ≠ [] ∧ m + 1 ≤ C.facets.length ∧ C.facets = computeTight ineqs C.vertex [] := by
  obtain ⟨cones', hco', hver, hvs, hcs⟩ := c88_cones (Nat.succ_pos m) hc hb h2
  rw [hco] at hco'
  obtain rfl := Outcome.cones.inj hco'
  have key : ∀ C ∈ cones.map (tightFacets ineqs), C.rays ≠ [] ∧ m + 1 ≤ C.facets.length ∧ C.facets = computeTight ineqs C.vertex [] := by
    intro C' hC'
    obtain ⟨C, hC, rfl⟩ := List.mem_map.1 hC'
    obtain ⟨-, -, hg, hf, -⟩ := hcs C hC
    have hx := (hvs.mem _).1 ⟨C.vertex, List.mem_map_of_mem hC, rfl⟩
    have hfe : (tightFacets ineqs C).facets = computeTight ineqs C.vertex [] := by unfold tightFacets; rw [hf]
    refine ⟨fun h0 => ?_, ?_, hfe⟩
    · have h0' : C.rays = [] := h0
      have hpt : ∀ w ∈ rows.map (rowPoint (n := m + 1)), w = C.vertex := by
        intro w hw
        have hw' : real w ∈ Poly (normals ineqs) fun i => (sides ineqs i : ℝ) := by
          rw [← hver] at hw
          exact ((hvs.mem _).1 ⟨w, hw, rfl⟩).1
        have := sub_mem_tangent (v := C.vertex) hw'
        rw [← hg, h0', generated_iff] at this
        have h0 := this (real w - real C.vertex) (by simp)
        have h1 : ∀ k ∈ Finset.univ, (real w - real C.vertex) k * (real w - real C.vertex) k = 0 :=
          (Finset.sum_eq_zero_iff_of_nonneg fun k _ => mul_self_nonneg _).1 (le_antisymm h0 (Finset.sum_nonneg fun k _ => mul_self_nonneg _))
        funext k
        have := mul_self_eq_zero.1 (h1 k (Finset.mem_univ k))
        simp only [real, Pi.sub_apply, sub_eq_zero] at this
        exact_mod_cast this
      have hn := hc.vertices (no_direction hc hb) |>.nodup
      rw [List.eq_replicate_of_mem hpt, List.nodup_replicate, List.length_map] at hn
      omega
    · rw [hfe]
      exact Spans.le_length _ (spans_of_vertex (normals ineqs) (sides ineqs) C.vertex hx _
        (normalRays_tight ineqs [C.vertex] (C.vertex, computeTight ineqs C.vertex []) (by simp)))
  refine ⟨?_, key⟩
  generalize cones.map (tightFacets ineqs) = L at key
  unfold allPrimalCones
  have hcomplete : completeCones alg L = .ok L := by
    cases L with
    | nil => rfl
    | cons C l =>
      obtain ⟨h1, h2, -⟩ := key C List.mem_cons_self
      refine if_neg ?_
      rintro (h | h)
      · rw [h] at h2; simp at h2
      · exact h1 h
  rw [hcomplete]
  have : (L.all fun C => decide (m + 1 ≤ C.facets.length)) = true := by
    rw [List.all_eq_true]
    intro C hC
    rw [decide_eq_true_eq]
    exact (key C hC).2.1
  simp only [this, if_true]

/-- **C88, counting in the irrational all-primal variant.** With vertex cones from cdd and triangulations of their rays that use no new rays, a number returned is the
number of integer points; no inequality is `0 ≥ 0`. -/
theorem c88_count_allPrimal {ineqs : List (ℤ × Vec (m + 1))} (hc : CddOk ineqs rows ead) (hb : Bornology.IsBounded (Polyhedron ineqs)) (h2 : 2 ≤ rows.length)
    (alg : Rays) (N : Ntl (m + 1)) (hN : N.Ok) (X : Smith.Xgcd) (irr : Cone (m + 1) → Fin (m + 1) → ℚ)
    (lp : Irrational.Solver (m + 1)) (hlp : Irrational.SolverOk lp) (depth : VertexCone (m + 1) → ℕ) (hd : ∀ C, 1 ≤ depth C)
    (maxDet : ℤ) (h0 : maxDet ≠ 0) (hmax : maxDet ≤ Piped.intMax) (fuel : ℕ) (hfuel : maxDet < fuel)
    (hz : ∀ q ∈ ineqs, q.2 ≠ 0) (cones out : List (GCone (m + 1)))
    (hco : computeVertexCones rows ead = .cones cones) (ho : allPrimalCones alg (cones.map (tightFacets ineqs)) = .ok out)
    (S : List (Vec (m + 1))) (hS : S.Nodup) (hmem : ∀ z, z ∈ S ↔ ∀ q ∈ ineqs, 0 ≤ q.1 + ∑ k, q.2 k * z k)
    (simplices : GCone (m + 1) → List (Mat (m + 1))) (hT : ∀ D ∈ out, Triangulation (simplices D) (generated D.rays))
    (hR : ∀ D ∈ out, ∀ B ∈ simplices D, ∀ i, B i ∈ D.rays) :
    ∃ moved, irrationalizeCones lp depth (out.map fun D => ⟨D.vertex, D.rays, D.facets, simplices D⟩) = some moved ∧
      ∀ (tries : ℕ) (guesses : ℕ → Vec (m + 1)) (r : ℤ),
        decomposeAndCount N X .irrationalAllPrimal irr maxDet fuel moved tries guesses = .ok r → r = S.length := by
  obtain ⟨ho', hkey⟩ := c88_allPrimal hc hb h2 alg cones hco
  rw [ho] at ho'
  obtain rfl := Except.ok.inj ho'
  obtain ⟨cones', hco', hver, hvs, hcs⟩ := c88_cones (Nat.succ_pos m) hc hb h2
  rw [hco] at hco'
  obtain rfl := Outcome.cones.inj hco'
  refine c65_count_irrationalAllPrimal N hN X irr lp hlp depth hd maxDet h0 hmax fuel hfuel (normals ineqs) (sides ineqs) S
    ⟨hS, fun z => by rw [hmem, lattice_iff]⟩ _ ?_ ?_
  · rw [List.map_map, List.map_map]
    exact hvs
  · intro C' hC'
    obtain ⟨D, hD, rfl⟩ := List.mem_map.1 hC'
    obtain ⟨h1, h3, h4⟩ := hkey D hD
    have htan := c69_tight_tangent ineqs D.vertex
    refine ⟨fun h => ?_, fun f hf hf0 => ?_, fun y => ?_, ?_, fun B hB i => hR D hD B hB i⟩
    · have h' : D.facets = [] := h
      rw [h'] at h3
      simp at h3
    · have hf' : f ∈ D.facets := hf
      rw [h4] at hf'
      have hf'' : f ∈ {f | f ∈ computeTight ineqs D.vertex []} := hf'
      rw [htan.2] at hf''
      obtain ⟨i, -, hi⟩ := hf''
      refine hz (ineqs.get i) (List.get_mem _ _) ?_
      rw [← neg_eq_zero]
      rw [← hf0, ← hi]
      rfl
    · show (∀ f ∈ D.facets, dot f y ≤ 0) ↔ _
      rw [h4]
      exact htan.1 y
    · show Triangulation (simplices D) (tangent _ _ D.vertex)
      obtain ⟨C, hC, rfl⟩ := List.mem_map.1 hD
      have := (hcs C hC).2.2.1
      show Triangulation _ (tangent _ _ C.vertex)
      rw [← this]
      exact hT _ hD

/-! ## The contract -/

/-- The row of a vertex. -/
def vertexRow (v : Fin n → ℚ) : List ℚ := 1 :: List.ofFn v

theorem rowPoint_vertexRow (v : Fin n → ℚ) : rowPoint (vertexRow v) = v := by
  funext k
  unfold rowPoint vertexRow
  rw [List.getD_cons_succ, List.getD_cons_zero, div_one, List.getD_eq_getElem _ _ (by simp)]
  simp

/-- **The contract of cdd can be met**, for all inequalities. -/
theorem cddOk_satisfiable (ineqs : List (ℤ × Vec n)) : ∃ rows ead, CddOk ineqs rows ead := by
  classical
  by_cases hu : (Polyhedron ineqs).Nonempty ∧ ¬ Bornology.IsBounded (Polyhedron ineqs)
  · refine ⟨[0 :: List.replicate n 0], [], by simp, by simp, by simpa using hu, fun h => absurd rfl (h _ List.mem_cons_self),
      fun h => absurd rfl (h _ List.mem_cons_self)⟩
  · obtain ⟨vs, hvs⟩ := vertexList_exists (normals ineqs) (sides ineqs)
    have hmap : (vs.map vertexRow).map rowPoint = vs := by
      rw [List.map_map]
      conv_rhs => rw [← List.map_id vs]
      exact List.map_congr_left fun v _ => rowPoint_vertexRow v
    have hhead : ∀ row ∈ vs.map (vertexRow (n := n)), row.head? = some 1 := by
      intro row hr
      obtain ⟨v, -, rfl⟩ := List.mem_map.1 hr
      rfl
    have hno : ∀ row ∈ vs.map (vertexRow (n := n)), row.head? ≠ some 0 := by
      intro row hr h
      rw [hhead row hr] at h
      simp at h
    let adj := Adjacent (Polyhedron ineqs) vs
    let nb : ℕ → List ℤ := fun i => (upTo 1 (vs.length + 1)).filter fun k => decide (adj (i + 1) k)
    have hnb : ∀ i k, k ∈ nb i ↔ adj (i + 1) k := by
      intro i k
      rw [List.mem_filter, mem_upTo, decide_eq_true_eq]
      refine ⟨fun h => h.2, fun h => ⟨?_, h⟩⟩
      have := adjacent_range _ _ _ _ h
      omega
    refine ⟨vs.map vertexRow, ((List.range vs.length).map fun i : ℕ => Tok.int ((i : ℤ) + 1) :: .int (nb i).length :: .word :: (nb i).map .int).flatten,
      ?_, fun row hr => Or.inr (hhead row hr), ?_, fun _ => by rw [hmap]; exact hvs, fun _ => ⟨_, by simp, rfl, ?_⟩⟩
    · intro row hr
      obtain ⟨v, -, rfl⟩ := List.mem_map.1 hr
      simp [vertexRow]
    · exact ⟨fun ⟨row, hr, h⟩ => absurd h (hno row hr), fun h => absurd h hu⟩
    · intro i line hi
      rw [List.getElem?_map, Option.map_eq_some_iff] at hi
      obtain ⟨j, hj, rfl⟩ := hi
      obtain ⟨hj', rfl⟩ := List.getElem?_eq_some_iff.1 hj
      rw [List.getElem_range, hmap]
      exact ⟨_, _, rfl, Or.inl ⟨rfl, List.Nodup.filter _ (nodup_upTo _ _), hnb i⟩⟩

end Verif.CddV
