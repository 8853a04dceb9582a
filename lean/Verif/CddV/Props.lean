import Verif.CddV.Cones
import Verif.Ti2.Count
import Verif.Regular.VertexList
import Mathlib.Analysis.Convex.KreinMilman
import Mathlib.Analysis.InnerProductSpace.EuclideanDist

/-!
# Vertex cones with cdd (C88)
-/

namespace Verif.CddV

open Verif.Barvinok Verif.Barvinok.Spec Verif.Brion Verif.Ti2 Verif.Regular Verif.ExpSubst

variable {n m : ℕ}

theorem adjacent_range (P : Set (Fin n → ℝ)) (vs : List (Fin n → ℚ)) (i k : ℤ) (h : Adjacent P vs i k) : 1 ≤ k ∧ k ≤ vs.length := by
  obtain ⟨a, b, v, w, -, rfl, -, hb, -⟩ := h
  have := (List.getElem?_eq_some_iff.1 hb).1
  omega

/-- Reading the lines from vertex number `i + 1` on. -/
theorem readEad_ok (E : List (List (ℤ × ℤ))) (hE : ∀ v ∈ E, Latte.RatVec.PosDen v ∧ v.length = n) (hn : 0 < n) (P : Set (Fin n → ℝ)) :
    ∀ (rest : List (List (ℤ × ℤ))) (i : ℕ) (lines : List (List Tok)) (s : List Tok), E.drop i = rest → lines.length = rest.length →
      (∀ (j : ℕ) (line : List Tok), lines[j]? = some line → IsLine E.length (Adjacent P (E.map point)) ((i + j : ℕ) + 1) line) →
      ∃ cones : List (GCone n), readEad E i rest (lines.flatten ++ s) = .cones cones ∧ cones.length = rest.length ∧
        ∀ (j : ℕ) (C : GCone n), cones[j]? = some C → ∃ v l, rest[j]? = some v ∧ C.vertex = point v ∧ C.facets = [] ∧ C.subspace = [] ∧ C.equalities = [] ∧
          l.Nodup ∧ (∀ k, k ∈ l ↔ Adjacent P (E.map point) ((i + j : ℕ) + 1) k) ∧ List.Forall₂ (RayTo E C.vertex) l C.rays := by
  intro rest
  induction rest with
  | nil =>
    intro i lines s _ _ _
    exact ⟨[], rfl, rfl, fun j C h => by simp at h⟩
  | cons v rest ih =>
    intro i lines s hdrop hlen hlines
    cases lines with
    | nil => simp at hlen
    | cons line lines =>
      have hi : E[i]? = some v := by
        have := congrArg List.head? hdrop
        simpa [List.head?_drop] using this
      have hvm : v ∈ E := List.mem_of_getElem? hi
      have hdrop' : E.drop (i + 1) = rest := by
        have := congrArg List.tail hdrop
        simpa [List.tail_drop] using this
      obtain ⟨cs, hcs, hcl, hcj⟩ := ih (i + 1) lines s hdrop' (by simpa using hlen) (by
        intro j line' hj
        have := hlines (j + 1) line' (by simpa using hj)
        rwa [show i + (j + 1) = i + 1 + j by ring] at this)
      obtain ⟨l, hl, hnd, hmem⟩ := readLine_ok E.length i (Adjacent P (E.map point)) (by
        intro k hk
        have := adjacent_range P _ _ k hk
        simpa using this) line (lines.flatten ++ s) (hlines 0 line (by simp))
      obtain ⟨rs, hrs, hf⟩ := rays_ok E hE hn v hvm l (by
        intro k hk
        obtain ⟨a, b, v', w', ha, hb, hv', hw', he⟩ := (hmem k).1 hk
        obtain rfl : a = i := by omega
        rw [List.getElem?_map, hi] at hv'
        simp only [Option.map_some, Option.some.injEq] at hv'
        rw [List.getElem?_map, Option.map_eq_some_iff] at hw'
        obtain ⟨w, hw, rfl⟩ := hw'
        refine ⟨w, by omega, ?_, by rw [hv']; exact he.1⟩
        rw [hb]
        simpa using hw)
      refine ⟨⟨point v, rs, [], [], []⟩ :: cs, ?_, by simp [hcl], ?_⟩
      · rw [List.flatten_cons, List.append_assoc, readEad, hl]
        simp only [hrs, hcs]
      · intro j C hC
        cases j with
        | zero =>
          simp only [List.getElem?_cons_zero, Option.some.injEq] at hC
          subst hC
          exact ⟨v, l, rfl, rfl, rfl, rfl, rfl, hnd, hmem, hf⟩
        | succ j =>
          rw [List.getElem?_cons_succ] at hC
          obtain ⟨v', l', h1, h2, h3, h4, h5, h6, h7, h8⟩ := hcj j C hC
          refine ⟨v', l', by simpa using h1, h2, h3, h4, h5, h6, ?_, h8⟩
          rw [show i + (j + 1) = i + 1 + j by ring]
          exact h7

variable {ineqs : List (ℤ × Vec n)} {rows : List (List ℚ)} {ead : List Tok}

theorem no_direction (hc : CddOk ineqs rows ead) (hb : Bornology.IsBounded (Polyhedron ineqs)) : ∀ row ∈ rows, row.head? ≠ some 0 :=
  fun row hr h => (hc.directions.1 ⟨row, hr, h⟩).2 hb

theorem recession_zero (hb : Bornology.IsBounded (Polyhedron ineqs)) (hne : (Polyhedron ineqs).Nonempty) :
    ∀ y : Fin n → ℝ, (∀ i, dot (normals ineqs i) y ≤ 0) → y = 0 := by
  intro y hy
  by_contra h0
  obtain ⟨x, hx⟩ := hne
  refine unbounded_of_recession (ineqs := ineqs) (y := y) ⟨h0, fun q hq => ?_⟩ hx hb
  obtain ⟨i, rfl⟩ := List.get_of_mem hq
  have := hy i
  rw [dot_normals] at this
  linarith

/-- The cones, from rows with positive leading entries whose points are the vertices and a line for each of them. -/
theorem cones_of_rows (hn : 0 < n) (hlead : ∀ row ∈ rows, ∃ q qs, row = q :: qs ∧ 0 < q ∧ qs.length = n)
    (hvs : IsVertexList (normals ineqs) (sides ineqs) (rows.map rowPoint)) (hb : Bornology.IsBounded (Polyhedron ineqs)) (h2 : 2 ≤ rows.length)
    (lines : List (List Tok)) (hll : lines.length = rows.length)
    (hlines : ∀ (i : ℕ) (line : List Tok), lines[i]? = some line → IsLine rows.length (Adjacent (Polyhedron ineqs) (rows.map rowPoint)) (i + 1) line) :
    ∃ cones : List (GCone n), computeVertexCones rows lines.flatten = .cones cones ∧ cones.map (·.vertex) = rows.map rowPoint ∧
      IsVertexList (normals ineqs) (sides ineqs) (cones.map (·.vertex)) ∧
      ∀ C ∈ cones, (∀ r ∈ C.rays, IsPrimitive r) ∧ IsRayList (tangent (normals ineqs) (sides ineqs) C.vertex) C.rays [] ∧
        generated C.rays = tangent (normals ineqs) (sides ineqs) C.vertex ∧ C.facets = [] ∧ C.subspace = [] ∧ C.equalities = [] := by
  have hnd : ∀ row ∈ rows, row.head? ≠ some 0 := by
    intro row hr h
    obtain ⟨q, qs, rfl, hq, -⟩ := hlead row hr
    simp only [List.head?_cons, Option.some.injEq] at h
    exact hq.ne' h
  obtain ⟨E, hEdef⟩ : ∃ E, E = rows.map vertexEntries := ⟨_, rfl⟩
  have hE : ∀ v ∈ E, Latte.RatVec.PosDen v ∧ v.length = n := by
    intro v hv
    rw [hEdef] at hv
    obtain ⟨row, hr, rfl⟩ := List.mem_map.1 hv
    obtain ⟨q, qs, rfl, hq, hl⟩ := hlead row hr
    exact ⟨posDen_vertexEntries q qs hq, by simpa [vertexEntries] using hl⟩
  have hpts : (E.map point : List (Fin n → ℚ)) = rows.map rowPoint := by
    rw [hEdef, List.map_map]
    refine List.map_congr_left fun row hr => ?_
    obtain ⟨q, qs, rfl, hq, hl⟩ := hlead row hr
    exact point_vertexEntries q qs hl
  obtain ⟨cones, hco, hcl, hcj⟩ := readEad_ok E hE hn (Polyhedron ineqs) E 0 lines [] (by simp) (by rw [hll, hEdef]; simp) (by
    intro j line hj
    have := hlines j line hj
    rw [← hpts] at this
    rw [Nat.zero_add, show E.length = rows.length by rw [hEdef]; simp]
    exact this)
  rw [List.append_nil] at hco
  have hcomp : (computeVertexCones rows lines.flatten : Outcome n) = .cones cones := by
    unfold computeVertexCones
    match rows, h2 with
    | row₁ :: row₂ :: rest, _ =>
      simp only
      rw [readVertices_some _ hnd, ← hEdef]
      exact hco
  have hver : cones.map (·.vertex) = E.map point := by
    apply List.ext_getElem?
    intro j
    rw [List.getElem?_map, List.getElem?_map]
    cases hj : cones[j]? with
    | none =>
      rw [List.getElem?_eq_none_iff] at hj
      rw [List.getElem?_eq_none (by omega)]
      rfl
    | some C =>
      obtain ⟨v, l, h1, h2, -⟩ := hcj j C hj
      rw [h1, Option.map_some, Option.map_some, h2]
  refine ⟨cones, hcomp, hver.trans hpts, by rw [hver, hpts]; exact hvs, fun C hC => ?_⟩
  obtain ⟨j, hj, rfl⟩ := List.getElem_of_mem hC
  obtain ⟨v, l, h1, h2, h3, h4, h5, h6, h7, h8⟩ := hcj j _ (List.getElem?_eq_getElem hj)
  rw [Nat.zero_add] at h7
  have hne : (Polyhedron ineqs).Nonempty := by
    rw [polyhedron_eq]
    have hm : (point v : Fin n → ℚ) ∈ rows.map rowPoint := by rw [← hpts]; exact List.mem_map_of_mem (List.mem_of_getElem? h1)
    exact ⟨_, ((hvs.mem _).1 ⟨_, hm, rfl⟩).1⟩
  have hprim : ∀ r ∈ cones[j].rays, IsPrimitive r := by
    intro r hr
    obtain ⟨i, hi, rfl⟩ := List.getElem_of_mem hr
    obtain ⟨w, -, -, hp, -⟩ := (List.forall₂_iff_get.1 h8).2 i (by rw [h8.length_eq]; exact hi) hi
    exact hp
  have hvm : cones[j].vertex ∈ rows.map rowPoint := by
    rw [h2, ← hpts]
    exact List.mem_map_of_mem (List.mem_of_getElem? h1)
  have hjv : (rows.map rowPoint : List (Fin n → ℚ))[j]? = some cones[j].vertex := by
    rw [← hpts, List.getElem?_map, h1, h2]
    rfl
  have hray : IsRayList (tangent (normals ineqs) (sides ineqs) cones[j].vertex) cones[j].rays [] := by
    have hinj := List.nodup_iff_injective_get.1 hvs.nodup
    have huniq : ∀ (a b : ℕ) (w : Fin n → ℚ), (rows.map rowPoint)[a]? = some w → (rows.map rowPoint)[b]? = some w → a = b := by
      intro a b w ha hb
      obtain ⟨ha', ha⟩ := List.getElem?_eq_some_iff.1 ha
      obtain ⟨hb', hb⟩ := List.getElem?_eq_some_iff.1 hb
      have := hinj (a₁ := ⟨a, ha'⟩) (a₂ := ⟨b, hb'⟩) (ha.trans hb.symm)
      simpa using this
    refine edges_rayList (rows.map rowPoint) hvs (recession_zero hb hne) _ hvm l h6 _
      (fun k _ w => 1 ≤ k ∧ (rows.map rowPoint)[(k - 1).toNat]? = some w) ?_ ?_ ?_ ?_
    · refine h8.imp fun k r h => ?_
      obtain ⟨w, hk, hw, -, hcr⟩ := h
      have : (rows.map rowPoint : List (Fin n → ℚ))[(k - 1).toNat]? = some (point w) := by rw [← hpts, List.getElem?_map, hw]; rfl
      exact ⟨point w, List.mem_of_getElem? this, ⟨hk, this⟩, hcr⟩
    · rintro k r w hk ⟨hk1, hw⟩
      obtain ⟨a, b, v', w', ha, hb', hv', hw', he⟩ := (h7 k).1 hk
      rw [hpts] at hv' hw'
      obtain rfl : a = j := by omega
      rw [hjv] at hv'
      obtain rfl := Option.some.inj hv'
      rw [show (k - 1).toNat = b by omega, hw'] at hw
      obtain rfl := Option.some.inj hw
      rw [← polyhedron_eq]
      exact he
    · rintro k k' r r' w ⟨hk, hw⟩ ⟨hk', hw'⟩
      have := huniq _ _ _ hw hw'
      omega
    · intro w hw he
      obtain ⟨b, hb', hbw⟩ := List.getElem_of_mem hw
      have hbs : (rows.map rowPoint : List (Fin n → ℚ))[b]? = some w := by rw [List.getElem?_eq_getElem hb', hbw]
      refine ⟨(b : ℤ) + 1, (h7 _).2 ⟨j, b, cones[j].vertex, w, rfl, rfl, by rw [hpts]; exact hjv, by rw [hpts]; exact hbs, by rw [polyhedron_eq]; exact he⟩, ?_⟩
      rintro r w' ⟨-, hw'⟩
      rw [show ((b : ℤ) + 1 - 1).toNat = b by omega, hbs] at hw'
      exact (Option.some.inj hw').symm
  exact ⟨hprim, hray, generated_tangent ineqs _ _ hray, h3, h4, h5⟩

/-- **C88, the vertex cones.** For a bounded polyhedron with at least two vertices, whichever order cdd lists the vertices in and whichever form it writes the lists of
adjacencies in, the cones returned are one for each vertex, in cdd's order; their rays are primitive integer vectors, namely the extreme rays of the tangent cone, each
once, and they generate it. -/
theorem c88_cones (hn : 0 < n) (hc : CddOk ineqs rows ead) (hb : Bornology.IsBounded (Polyhedron ineqs)) (h2 : 2 ≤ rows.length) :
    ∃ cones : List (GCone n), computeVertexCones rows ead = .cones cones ∧ cones.map (·.vertex) = rows.map rowPoint ∧
      IsVertexList (normals ineqs) (sides ineqs) (cones.map (·.vertex)) ∧
      ∀ C ∈ cones, (∀ r ∈ C.rays, IsPrimitive r) ∧ IsRayList (tangent (normals ineqs) (sides ineqs) C.vertex) C.rays [] ∧
        generated C.rays = tangent (normals ineqs) (sides ineqs) C.vertex ∧ C.facets = [] ∧ C.subspace = [] ∧ C.equalities = [] := by
  have hnd := no_direction hc hb
  obtain ⟨lines, hll, rfl, hlines⟩ := hc.lines hnd
  refine cones_of_rows hn (fun row hr => ?_) (hc.vertices hnd) hb h2 lines hll hlines
  have h1 := (hc.lead row hr).resolve_left (hnd row hr)
  have h2 := hc.length row hr
  cases row with
  | nil => simp at h1
  | cons q qs =>
    simp only [List.head?_cons, Option.some.injEq] at h1
    exact ⟨q, qs, rfl, by rw [h1]; norm_num, by simpa using h2⟩

end Verif.CddV
