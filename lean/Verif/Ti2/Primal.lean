import Verif.Ti2.Dual

/-!
# The cones of the irrational all-primal variant (C84)
-/

namespace Verif.Ti2

open Verif.Barvinok Verif.Barvinok.Spec Verif.Brion Verif.Regular Verif.ExpSubst

variable {n m : ℕ}

theorem dualizeCones_forall (alg : Rays) : ∀ (cones : List (GCone n)) (P : GCone n → GCone n → Prop),
    (∀ C ∈ cones, ∃ D, dualizeCone alg C = .ok D ∧ P C D) → ∃ out, dualizeCones alg cones = .ok out ∧ List.Forall₂ P cones out := by
  intro cones P
  induction cones with
  | nil => intro _; exact ⟨[], rfl, .nil⟩
  | cons C l ih =>
    intro h
    obtain ⟨D, hD, hP⟩ := h C List.mem_cons_self
    obtain ⟨out, ho, hf⟩ := ih fun C' hC' => h C' (List.mem_cons_of_mem _ hC')
    refine ⟨D :: out, ?_, .cons hP hf⟩
    unfold dualizeCones
    rw [hD, ho]
    rfl

/-- **C84, the irrational all-primal variant.** From the vertex cones of 4ti2, dualizing twice always works; the cones keep their order, vertices and facets, and get
as rays the extreme rays of the tangent cone, each once. -/
theorem c84_allPrimal (alg : Rays) (ha : RaysOk alg) (ineqs : List (ℤ × Vec (m + 1))) (unbounded : Bool) (cones : List (GCone (m + 1)))
    (h : vertexCones alg ineqs = .ok (unbounded, cones)) :
    ∃ out, allPrimalCones alg (cones.map (tightFacets ineqs)) = .ok out ∧ List.Forall₂ (fun C D => D.vertex = C.vertex ∧ D.facets = C.facets ∧
      (∀ y, (∀ f ∈ D.facets, dot f y ≤ 0) ↔ y ∈ tangent (normals ineqs) (sides ineqs) C.vertex) ∧
      IsRayList (tangent (normals ineqs) (sides ineqs) C.vertex) D.rays [] ∧ generated D.rays = tangent (normals ineqs) (sides ineqs) C.vertex ∧
      D.subspace = [] ∧ D.equalities = []) cones out := by
  have hne := facets_ne_nil alg ha ineqs unbounded cones h
  obtain ⟨-, hv, hc⟩ := c83_cones alg ha ineqs unbounded cones h
  have hspan : ∀ C ∈ cones, Spans C.facets := by
    intro C hC
    have hx := (hv _).1 ⟨C, hC, rfl⟩
    rw [polyhedron_eq] at hx
    exact spans_of_vertex (normals ineqs) (sides ineqs) C.vertex hx C.facets (hc C hC).2.1
  have htan : ∀ C ∈ cones, ∀ y, (∀ f ∈ C.facets, dot f y ≤ 0) ↔ y ∈ tangent (normals ineqs) (sides ineqs) C.vertex := by
    intro C hC y
    have hg := (hc C hC).2.1
    constructor
    · intro hy i hi
      have hm : toR (normals ineqs i) ∈ generated C.facets := by
        rw [hg]
        unfold normal
        rw [mem_coneOf_iff]
        intro z hz
        have := hz i hi
        rw [show ∑ k, toR (normals ineqs i) k * z k = dot (normals ineqs i) z from rfl]
        exact this
      exact (generated_iff _ _).1 hm y hy
    · intro hy f hf
      have hm : toR f ∈ normal (normals ineqs) (sides ineqs) C.vertex := by
        rw [← hg, generated_iff]
        intro z hz
        exact hz f hf
      unfold normal at hm
      rw [mem_coneOf_iff] at hm
      exact hm y hy
  have ht : cones.map (tightFacets ineqs) = cones := by
    rw [List.map_congr_left (g := id) fun C hC => tightFacets_id ineqs C (hne C hC), List.map_id]
  rw [ht]
  unfold allPrimalCones
  cases hcs : cones with
  | nil => exact ⟨[], rfl, .nil⟩
  | cons C0 l =>
    rw [← hcs]
    have h0 : C0.rays = [] := (hc C0 (by rw [hcs]; exact List.mem_cons_self)).2.2.1
    have key : ∃ out, dualizeTwice alg cones = .ok out ∧ List.Forall₂ (fun C D => D.vertex = C.vertex ∧ D.facets = C.facets ∧
        IsRayList {y : Fin (m + 1) → ℝ | ∀ f ∈ C.facets, dot f y ≤ 0} D.rays D.subspace ∧ D.subspace = [] ∧ D.equalities = []) cones out := by
      unfold dualizeTwice
      rw [dualizeCones_swap alg cones hne]
      obtain ⟨out, ho, hf⟩ := dualizeCones_forall alg (cones.map GCone.swap) (fun C D => D.vertex = C.vertex ∧ D.facets = C.rays ∧
        IsRayList {y : Fin (m + 1) → ℝ | ∀ f ∈ C.rays, dot f y ≤ 0} D.rays D.subspace ∧ D.subspace = [] ∧ D.equalities = []) (by
        intro C' hC'
        obtain ⟨C, hC, rfl⟩ := List.mem_map.1 hC'
        obtain ⟨-, -, hr, hs, he⟩ := hc C hC
        have hf' : C.swap.facets = [] := hr
        have hs' : C.swap.subspace = [] := he
        have he' : C.swap.equalities = [] := hs
        obtain ⟨D, hD⟩ := (c84_ends_partial alg C.swap hf' hs').2 (by
          rintro ⟨-, y, hy, hz⟩
          exact hy (hspan C hC y hz))
        obtain ⟨h1, h2, h3, h4⟩ := c84_dualize alg ha C.swap D hf' he' hD
        exact ⟨D, hD, h1, h2, h4, (c84_subspace alg ha C.swap D hf' he' hD).2 (hspan C hC), h3.trans hs'⟩)
      refine ⟨out, ho, ?_⟩
      rw [List.forall₂_map_left_iff] at hf
      exact hf
    obtain ⟨out, ho, hf⟩ := key
    have hlen : (out.all fun C => decide (m + 1 ≤ C.facets.length)) = true := by
      rw [List.all_eq_true]
      intro D hD
      rw [decide_eq_true_eq]
      obtain ⟨i, hi, e⟩ := List.getElem_of_mem hD
      have hl := hf.length_eq
      have h1 := (List.forall₂_iff_get.1 hf).2 i (by rw [hl]; exact hi) hi
      have h2 : D.facets = (cones.get ⟨i, by rw [hl]; exact hi⟩).facets := by rw [← e]; exact h1.2.1
      rw [h2]
      exact Spans.le_length _ (hspan _ (List.get_mem _ _))
    refine ⟨out, ?_, ?_⟩
    · have h1 : completeCones alg cones = .ok out := by
        rw [hcs] at ho ⊢
        exact (if_pos (Or.inr h0)).trans ho
      rw [h1]
      simp only [hlen, if_true]
    · refine List.forall₂_iff_get.2 ⟨hf.length_eq, fun i hi hi' => ?_⟩
      obtain ⟨h1, h2, h3, h4, h5⟩ := (List.forall₂_iff_get.1 hf).2 i hi hi'
      have hC := List.get_mem cones ⟨i, hi⟩
      have hset : {y : Fin (m + 1) → ℝ | ∀ f ∈ (cones.get ⟨i, hi⟩).facets, dot f y ≤ 0} = tangent (normals ineqs) (sides ineqs) (cones.get ⟨i, hi⟩).vertex :=
        Set.ext fun y => htan _ hC y
      have hgen := polar_generated (R := (cones.get ⟨i, hi⟩).facets) h3
      refine ⟨h1, h2, fun y => by rw [h2]; exact htan _ hC y, by rw [← hset, ← h4]; exact h3, ?_, h4, h5⟩
      rw [← hset]
      show _ = Polar _
      rw [hgen, h4]
      ext y
      constructor
      · intro hy; exact ⟨y, hy, 0, Submodule.zero_mem _, by rw [add_zero]⟩
      · rintro ⟨u, hu, w, hw, rfl⟩
        rw [range_get] at hw
        have : w = 0 := by simpa using hw
        rw [this, add_zero]
        exact hu

/-- **C84, counting in the irrational all-primal variant.** With vertex cones from 4ti2 and triangulations of their rays that use no new rays, a number returned is the
number of integer points; no inequality is `0 ≥ 0`. -/
theorem c84_count_allPrimal (alg : Rays) (ha : RaysOk alg) (N : Ntl (m + 1)) (hN : N.Ok) (X : Smith.Xgcd) (irr : Cone (m + 1) → Fin (m + 1) → ℚ)
    (lp : Irrational.Solver (m + 1)) (hlp : Irrational.SolverOk lp) (depth : VertexCone (m + 1) → ℕ) (hd : ∀ C, 1 ≤ depth C)
    (maxDet : ℤ) (h0 : maxDet ≠ 0) (hmax : maxDet ≤ Piped.intMax) (fuel : ℕ) (hfuel : maxDet < fuel)
    (ineqs : List (ℤ × Vec (m + 1))) (hz : ∀ q ∈ ineqs, q.2 ≠ 0) (unbounded : Bool) (cones out : List (GCone (m + 1)))
    (hv : vertexCones alg ineqs = .ok (unbounded, cones)) (ho : allPrimalCones alg (cones.map (tightFacets ineqs)) = .ok out)
    (S : List (Vec (m + 1))) (hS : S.Nodup) (hmem : ∀ z, z ∈ S ↔ ∀ q ∈ ineqs, 0 ≤ q.1 + ∑ k, q.2 k * z k)
    (simplices : GCone (m + 1) → List (Mat (m + 1))) (hT : ∀ D ∈ out, Triangulation (simplices D) (generated D.rays))
    (hR : ∀ D ∈ out, ∀ B ∈ simplices D, ∀ i, B i ∈ D.rays) :
    ∃ moved, irrationalizeCones lp depth (out.map fun D => ⟨D.vertex, D.rays, D.facets, simplices D⟩) = some moved ∧
      ∀ (tries : ℕ) (guesses : ℕ → Vec (m + 1)) (r : ℤ),
        decomposeAndCount N X .irrationalAllPrimal irr maxDet fuel moved tries guesses = .ok r → r = S.length := by
  obtain ⟨out', ho', hf⟩ := c84_allPrimal alg ha ineqs unbounded cones hv
  rw [ho] at ho'
  obtain rfl := Except.ok.inj ho'
  obtain ⟨-, -, hc⟩ := c83_cones alg ha ineqs unbounded cones hv
  have hne := facets_ne_nil alg ha ineqs unbounded cones hv
  have hvs := (vertexList_of alg ha ineqs unbounded cones hv).1
  have hver : out.map (·.vertex) = cones.map (·.vertex) := by
    clear hT hR ho ho' hvs hne hc hv
    induction hf with
    | nil => rfl
    | cons h1 _ ih => rw [List.map_cons, List.map_cons, h1.1, ih]
  refine c65_count_irrationalAllPrimal N hN X irr lp hlp depth hd maxDet h0 hmax fuel hfuel (normals ineqs) (sides ineqs) S
    ⟨hS, fun z => by rw [hmem, lattice_iff]⟩ _ ?_ ?_
  · rw [List.map_map] at hvs ⊢
    have : ((·.vertex) ∘ fun D : GCone (m + 1) => (⟨D.vertex, D.rays, D.facets, simplices D⟩ : VertexCone (m + 1))) = (·.vertex) := rfl
    rw [this, hver]
    exact hvs
  · intro C' hC'
    obtain ⟨D, hD, rfl⟩ := List.mem_map.1 hC'
    obtain ⟨i, hi, e⟩ := List.getElem_of_mem hD
    have hl := hf.length_eq
    obtain ⟨h1, h2, h3, -, h5, -⟩ := (List.forall₂_iff_get.1 hf).2 i (by rw [hl]; exact hi) hi
    have hC := List.get_mem cones ⟨i, by rw [hl]; exact hi⟩
    have e' : out.get ⟨i, hi⟩ = D := e
    rw [e'] at h1 h2 h3 h5
    refine ⟨by rw [h2]; exact hne _ hC, fun f hf' hf0 => ?_, fun y => by rw [h1]; exact h3 y, ?_, fun B hB i => hR D hD B hB i⟩
    · have hf'' : f ∈ D.facets := hf'
      rw [h2] at hf''
      obtain ⟨q, hq, -, hp⟩ := ((hc _ hC).1 f).1 hf''
      rcases hp with hp | ⟨⟨g, -, hg⟩, -⟩
      · exact hz q hq (neg_eq_zero.1 hp.1)
      · refine hz q hq ?_
        rw [← neg_eq_zero]
        funext k
        rw [← hg k, hf0]
        simp
    · show Triangulation (simplices D) (tangent _ _ D.vertex)
      rw [h1, ← h5]
      exact hT D hD

end Verif.Ti2
