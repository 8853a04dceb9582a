import Verif.Vrep.Weyl
import Verif.Vrep.Dualize
import Verif.CddV.Count

/-!
# Input by vertices (C89)
-/

namespace Verif.Vrep

open Verif.Barvinok Verif.Barvinok.Spec Verif.Brion Verif.Ti2 Verif.Regular Verif.CddV Verif.ExpSubst

variable {n m : ℕ} {rows : List (List ℚ)} {res : Option (List Tok)}

/-- **Specification.** The directions into which one can go from the point `v` and stay in the set. -/
def Directions (P : Set (Fin n → ℝ)) (v : Fin n → ℚ) : Set (Fin n → ℝ) := {y | ∃ t : ℝ, 0 < t ∧ real v + t • y ∈ P}

theorem tangent_eq {ineqs : List (ℤ × Vec n)} {v : Fin n → ℚ} (hv : real v ∈ Polyhedron ineqs) :
    tangent (normals ineqs) (sides ineqs) v = Directions (Polyhedron ineqs) v := by
  rw [polyhedron_eq] at hv ⊢
  ext y
  constructor
  · intro hy
    obtain ⟨t, h2, h1⟩ := ((small_step hv hy).and self_mem_nhdsWithin).exists
    exact ⟨t, h1, h2⟩
  · rintro ⟨t, ht, h⟩
    have h1 := sub_mem_tangent (v := v) h
    rw [add_sub_cancel_left] at h1
    have h2 := smul_mem_tangent (inv_pos.2 ht).le h1
    rwa [smul_smul, inv_mul_cancel₀ ht.ne', one_smul] at h2

theorem no_direction_row (hp : IsPoints n rows) : ∀ row ∈ rows, row.head? ≠ some 0 := by
  intro row hr h
  obtain ⟨q, qs, rfl, hq, -⟩ := hp row hr
  simp only [List.head?_cons, Option.some.injEq] at h
  exact hq.ne' h

theorem vrep_two (h2 : 2 ≤ rows.length) (hp : IsPoints n rows) : (computeVertexConesFromVrep rows res : CddV.Outcome n) =
    match res with | none => .stop | some ead => computeVertexCones rows ead := by
  match rows, h2 with
  | r1 :: r2 :: rest, _ =>
    unfold computeVertexConesFromVrep computeVertexCones
    simp only [readVertices_some _ (no_direction_row hp)]
    cases res <;> rfl

/-- **C89, redundant points.** If a point is listed twice or is a convex combination of others, the program stops with status 1. -/
theorem c89_redundant (hp : IsPoints n rows) (h2 : 2 ≤ rows.length) (ha : AdjacencyOk n rows res) (hr : ¬ Irredundant n rows) :
    (computeVertexConesFromVrep rows res : CddV.Outcome n) = .stop := by
  rw [vrep_two h2 hp, ha.redundant.2 hr]

theorem vrep_core (hn : 0 < n) (hp : IsPoints n rows) (h2 : 2 ≤ rows.length) (ha : AdjacencyOk n rows res) (hi : Irredundant n rows)
    (ineqs : List (ℤ × Vec n)) (hP : Polyhedron ineqs = Hull rows) :
    ∃ cones : List (GCone n), computeVertexConesFromVrep rows res = .cones cones ∧ cones.map (·.vertex) = rows.map rowPoint ∧
      IsVertexList (normals ineqs) (sides ineqs) (cones.map (·.vertex)) ∧
      ∀ C ∈ cones, (∀ r ∈ C.rays, IsPrimitive r) ∧ IsRayList (tangent (normals ineqs) (sides ineqs) C.vertex) C.rays [] ∧
        generated C.rays = tangent (normals ineqs) (sides ineqs) C.vertex ∧ C.facets = [] ∧ C.subspace = [] ∧ C.equalities = [] := by
  cases hres : res with
  | none => exact absurd hi (ha.redundant.1 hres)
  | some ead =>
    obtain ⟨lines, hll, rfl, hlines⟩ := ha.lines ead hres
    rw [vrep_two h2 hp]
    refine cones_of_rows hn hp (irredundant_vertices hi ineqs hP) (by rw [hP]; exact hull_bounded rows) h2 lines hll ?_
    rw [hP]
    exact hlines

/-- **C89, the vertex cones.** For at least two points, none of them redundant, the cones are one for each point, in the order of the file; the rays are primitive integer
vectors, the extreme rays of the cone of directions into the convex hull, each once, and they generate it. -/
theorem c89_cones (hn : 0 < n) (hp : IsPoints n rows) (h2 : 2 ≤ rows.length) (ha : AdjacencyOk n rows res) (hi : Irredundant n rows) :
    ∃ cones : List (GCone n), computeVertexConesFromVrep rows res = .cones cones ∧ cones.map (·.vertex) = rows.map rowPoint ∧
      ∀ C ∈ cones, (∀ r ∈ C.rays, IsPrimitive r) ∧ IsRayList (Directions (Hull rows) C.vertex) C.rays [] ∧
        generated C.rays = Directions (Hull rows) C.vertex ∧ C.facets = [] ∧ C.subspace = [] ∧ C.equalities = [] := by
  obtain ⟨ineqs, hP⟩ := exists_inequalities (n := n) rows
  obtain ⟨cones, h1, h3, h4, h5⟩ := vrep_core hn hp h2 ha hi ineqs hP
  refine ⟨cones, h1, h3, fun C hC => ?_⟩
  have hv : real C.vertex ∈ Polyhedron ineqs := by
    rw [polyhedron_eq]
    exact ((h4.mem _).1 ⟨C.vertex, List.mem_map_of_mem hC, rfl⟩).1
  have := h5 C hC
  rw [tangent_eq hv, hP] at this
  exact this

/-! ## Counting -/

/-- A vector orthogonal to all directions into a polytope with interior points is zero. -/
theorem spans_of_interior {P : Set (Fin n → ℝ)} (hint : (interior P).Nonempty) (v : Fin n → ℚ) (L : List (Vec n)) (hg : ∀ x ∈ P, x - real v ∈ generated L) :
    Spans L := by
  intro d hd
  have horth : ∀ x ∈ P, ∑ k, (x - real v) k * d k = 0 := by
    intro x hx
    have h1 := (generated_iff _ _).1 (hg x hx)
    refine le_antisymm (h1 d fun r hr => (hd r hr).le) ?_
    have h2 := h1 (-d) fun r hr => by
      have : dot r (-d) = -dot r d := by
        unfold dot
        rw [← Finset.sum_neg_distrib]
        exact Finset.sum_congr rfl fun k _ => by simp
      rw [this, hd r hr, neg_zero]
    have e : ∑ k, (x - real v) k * (-d) k = -∑ k, (x - real v) k * d k := by
      rw [← Finset.sum_neg_distrib]
      exact Finset.sum_congr rfl fun k _ => by simp
    rw [e] at h2
    linarith
  obtain ⟨x, hx⟩ := hint
  have hnhds : P ∈ nhds x := mem_interior_iff_mem_nhds.1 hx
  have hcont : Filter.Tendsto (fun t : ℝ => x + t • d) (nhds 0) (nhds x) := by
    have : Continuous fun t : ℝ => x + t • d := by fun_prop
    have h := this.tendsto 0
    simpa using h
  have hev := hcont hnhds
  rw [Filter.mem_map, Metric.mem_nhds_iff] at hev
  obtain ⟨ε, hε, hball⟩ := hev
  have hmem : x + (ε / 2) • d ∈ P := hball (by
    rw [Metric.mem_ball, Real.dist_eq, sub_zero, abs_of_pos (by positivity)]
    linarith)
  have h1 := horth _ hmem
  have h2 := horth x (interior_subset hx)
  have h3 : ∑ k, (x + (ε / 2) • d - real v) k * d k = ∑ k, (x - real v) k * d k + (ε / 2) * ∑ k, d k * d k := by
    rw [Finset.mul_sum, ← Finset.sum_add_distrib]
    exact Finset.sum_congr rfl fun k _ => by simp; ring
  rw [h3, h2, zero_add] at h1
  have h4 : ∑ k, d k * d k = 0 := by
    rcases mul_eq_zero.1 h1 with h | h
    · linarith
    · exact h
  have h5 := (Finset.sum_eq_zero_iff_of_nonneg fun k _ => mul_self_nonneg (d k)).1 h4
  funext k
  exact mul_self_eq_zero.1 (h5 k (Finset.mem_univ k))

theorem two_rows (hint : (interior (Hull rows : Set (Fin (m + 1) → ℝ))).Nonempty) : 2 ≤ rows.length := by
  by_contra h
  have hsub : (Points rows : Set (Fin (m + 1) → ℝ)).Subsingleton := by
    rintro x ⟨r, hr, rfl⟩ y ⟨r', hr', rfl⟩
    match rows, h with
    | [], _ => cases hr
    | [row], _ => rw [List.mem_singleton.1 hr, List.mem_singleton.1 hr']
    | _ :: _ :: _, h => simp at h
  rcases hsub.eq_empty_or_singleton with h0 | ⟨p, h0⟩
  · unfold Hull at hint
    rw [h0, convexHull_empty, interior_empty] at hint
    exact Set.not_nonempty_empty hint
  · unfold Hull at hint
    rw [h0, convexHull_singleton, interior_singleton] at hint
    exact Set.not_nonempty_empty hint

theorem dualizeAll_forall (dual : GCone n → Except Fail (GCone n)) : ∀ (cones : List (GCone n)) (P : GCone n → GCone n → Prop),
    (∀ C ∈ cones, ∃ D, dual C = .ok D ∧ P C D) → ∃ out, dualizeAll dual cones = .ok out ∧ List.Forall₂ P cones out := by
  intro cones P
  induction cones with
  | nil => intro _; exact ⟨[], rfl, .nil⟩
  | cons C l ih =>
    intro h
    obtain ⟨D, hD, hP⟩ := h C List.mem_cons_self
    obtain ⟨out, ho, hf⟩ := ih fun C' hC' => h C' (List.mem_cons_of_mem _ hC')
    refine ⟨D :: out, ?_, .cons hP hf⟩
    unfold dualizeAll
    rw [hD, ho]
    rfl

/-- The polar of the tangent cone is the normal cone. -/
theorem generated_normal {ineqs : List (ℤ × Vec n)} {v : Fin n → ℚ} {R F : List (Vec n)} (hR : generated R = tangent (normals ineqs) (sides ineqs) v)
    (hF : IsRayList (Polar R) F []) : generated F = normal (normals ineqs) (sides ineqs) v := by
  have h1 : generated F = Polar R := by
    rw [polar_generated hF]
    ext y
    constructor
    · intro hy; exact ⟨y, hy, 0, Submodule.zero_mem _, by rw [add_zero]⟩
    · rintro ⟨u, hu, w, hw, rfl⟩
      rw [range_get] at hw
      have : w = 0 := by simpa using hw
      rw [this, add_zero]
      exact hu
  rw [h1]
  ext y
  unfold normal
  rw [mem_coneOf_iff]
  constructor
  · intro hy z hz
    have hz' : z ∈ generated R := by rw [hR]; exact hz
    have := (generated_iff R z).1 hz' y hy
    rw [show ∑ k, y k * z k = ∑ k, z k * y k from Finset.sum_congr rfl fun k _ => mul_comm _ _]
    exact this
  · intro hy r hr
    have hr' : toR r ∈ tangent (normals ineqs) (sides ineqs) v := by
      rw [← hR, generated_iff]
      intro z hz
      exact hz r hr
    have := hy (toR r) hr'
    rw [show dot r y = ∑ k, y k * toR r k from Finset.sum_congr rfl fun k _ => mul_comm _ _]
    exact this

/-- The integer points of the convex hull. -/
def IsLatticePoints (P : Set (Fin n → ℝ)) (S : List (Vec n)) : Prop := S.Nodup ∧ ∀ z : Vec n, z ∈ S ↔ (fun k => (z k : ℝ)) ∈ P

/-- The cones after dualization. -/
theorem vrep_dualized (hp : IsPoints (m + 1) rows) (ha : AdjacencyOk (m + 1) rows res) (hi : Irredundant (m + 1) rows)
    (hint : (interior (Hull rows : Set (Fin (m + 1) → ℝ))).Nonempty) (dual : GCone (m + 1) → Except Fail (GCone (m + 1))) (hd : DualOk dual)
    (ineqs : List (ℤ × Vec (m + 1))) (hP : Polyhedron ineqs = Hull rows) :
    ∃ cones out, computeVertexConesFromVrep rows res = .cones cones ∧ dualizeAll dual cones = .ok out ∧
      cones.map (·.vertex) = rows.map rowPoint ∧ IsVertexList (normals ineqs) (sides ineqs) (cones.map (·.vertex)) ∧
      (∀ C ∈ cones, Spans C.rays ∧ generated C.rays = tangent (normals ineqs) (sides ineqs) C.vertex ∧ C.facets = [] ∧ C.subspace = [] ∧ C.equalities = []) ∧
      List.Forall₂ (fun C D => D.vertex = C.vertex ∧ D.facets = C.rays ∧ IsRayList (Polar C.rays) D.rays [] ∧ D.subspace = [] ∧ D.equalities = []) cones out := by
  obtain ⟨cones, h1, h3, h4, h5⟩ := vrep_core (Nat.succ_pos m) hp (two_rows hint) ha hi ineqs hP
  have hsp : ∀ C ∈ cones, Spans C.rays := by
    intro C hC
    refine spans_of_interior hint C.vertex C.rays fun x hx => ?_
    rw [(h5 C hC).2.2.1]
    refine sub_mem_tangent ?_
    rw [← polyhedron_eq, hP]
    exact hx
  obtain ⟨out, ho, hf⟩ := dualizeAll_forall dual cones (fun C D => D.vertex = C.vertex ∧ D.facets = C.rays ∧ IsRayList (Polar C.rays) D.rays [] ∧ D.subspace = [] ∧
    D.equalities = []) fun C hC => by
      obtain ⟨-, -, -, hf, hs, he⟩ := h5 C hC
      exact hd.1 C hf hs he (hsp C hC)
  exact ⟨cones, out, h1, ho, h3, h4, fun C hC => ⟨hsp C hC, (h5 C hC).2.2⟩, hf⟩

theorem forall₂_vertex {P : GCone n → GCone n → Prop} (hP : ∀ C D, P C D → D.vertex = C.vertex) {cones out : List (GCone n)} (h : List.Forall₂ P cones out) :
    out.map (·.vertex) = cones.map (·.vertex) := by
  induction h with
  | nil => rfl
  | cons h1 _ ih => rw [List.map_cons, List.map_cons, hP _ _ h1, ih]

theorem normalRays_of {ineqs : List (ℤ × Vec n)} {cones out : List (GCone n)}
    (hc : ∀ C ∈ cones, generated C.rays = tangent (normals ineqs) (sides ineqs) C.vertex)
    (hf : List.Forall₂ (fun C D : GCone n => D.vertex = C.vertex ∧ D.facets = C.rays ∧ IsRayList (Polar C.rays) D.rays [] ∧ D.subspace = [] ∧ D.equalities = []) cones out) :
    NormalRays (normals ineqs) (sides ineqs) (out.map fun C => (C.vertex, C.rays)) := by
  intro c hcm
  obtain ⟨D, hD, rfl⟩ := List.mem_map.1 hcm
  obtain ⟨i, hi, rfl⟩ := List.getElem_of_mem hD
  have hl := hf.length_eq
  obtain ⟨h1, -, h2, -⟩ := (List.forall₂_iff_get.1 hf).2 i (by rw [hl]; exact hi) hi
  have hC := List.get_mem cones ⟨i, by rw [hl]; exact hi⟩
  show generated (out.get ⟨i, hi⟩).rays = normal _ _ (out.get ⟨i, hi⟩).vertex
  rw [h1]
  exact generated_normal (hc _ hC) h2

theorem lattice_hull {ineqs : List (ℤ × Vec n)} (hP : Polyhedron ineqs = Hull rows) (S : List (Vec n)) (hS : IsLatticePoints (Hull rows) S) :
    LatticePoints (normals ineqs) (sides ineqs) S := by
  refine ⟨hS.1, fun z => ?_⟩
  rw [hS.2, lattice_iff, ← hP]
  exact lattice_mem z

/-- **C89, counting.** For points whose convex hull has interior points, with the default decomposition and any dualization that does what it is to do, a number reported
is the number of integer points of the convex hull. -/
theorem c89_count (hp : IsPoints (m + 1) rows) (ha : AdjacencyOk (m + 1) rows res) (hint : (interior (Hull rows : Set (Fin (m + 1) → ℝ))).Nonempty)
    (dual : GCone (m + 1) → Except Fail (GCone (m + 1))) (hd : DualOk dual) (N : Ntl (m + 1)) (hN : N.Ok) (X : Smith.Xgcd) (irr : Cone (m + 1) → Fin (m + 1) → ℚ)
    (maxDet : ℤ) (h0 : maxDet ≠ 0) (hmax : maxDet ≤ Piped.intMax) (fuel : ℕ) (hfuel : maxDet < fuel)
    (S : List (Vec (m + 1))) (hS : IsLatticePoints (Hull rows) S)
    (tries : ℕ) (tris : ℕ → List (Vec (m + 1)) → ℕ → Except Fail (List (List (Vec (m + 1))) × ℕ)) (ht : ∀ t, TriangulationOk (tris t))
    (guesses : ℕ → Vec (m + 1)) (r : ℤ) (h : countVrep rows res dual N X irr maxDet fuel tries tris guesses = .number r) : r = S.length := by
  by_cases hi : Irredundant (m + 1) rows
  · obtain ⟨ineqs, hP⟩ := exists_inequalities (n := m + 1) rows
    obtain ⟨cones, out, hco, ho, hver, hvl, hc, hf⟩ := vrep_dualized hp ha hi hint dual hd ineqs hP
    unfold countVrep at h
    rw [hco] at h
    simp only [ho] at h
    cases hq : triangulateAndCount N X .dual irr maxDet fuel (out.map fun C => (C.vertex, C.rays)) tries tris guesses with
    | error e => rw [hq] at h; cases h
    | ok k =>
      rw [hq] at h
      obtain rfl := CddV.Report.number.inj h
      refine c75_count N hN X irr maxDet h0 hmax fuel hfuel (normals ineqs) (sides ineqs) S (lattice_hull hP S hS) _ ?_
        (normalRays_of (fun C hC => (hc C hC).2.1) hf) tries tris ht guesses k hq
      rw [List.map_map]
      have := forall₂_vertex (fun C D h => h.1) hf
      rw [← this] at hvl
      exact hvl
  · unfold countVrep at h
    rw [c89_redundant hp (two_rows hint) ha hi] at h
    cases h

/-- **C89, an answer is found.** If no point is redundant, the program ends with the number as soon as a triangulation goes through and its random vector is generic. -/
theorem c89_total (hp : IsPoints (m + 1) rows) (ha : AdjacencyOk (m + 1) rows res) (hi : Irredundant (m + 1) rows)
    (hint : (interior (Hull rows : Set (Fin (m + 1) → ℝ))).Nonempty)
    (dual : GCone (m + 1) → Except Fail (GCone (m + 1))) (hd : DualOk dual) (N : Ntl (m + 1)) (hN : N.Ok) (hsv : ShortVectors N) (X : Smith.Xgcd)
    (irr : Cone (m + 1) → Fin (m + 1) → ℚ) (maxDet : ℤ) (h1 : 1 ≤ maxDet) (hmax : maxDet ≤ Piped.intMax) (fuel : ℕ) (hfuel : maxDet < fuel)
    (S : List (Vec (m + 1))) (hS : IsLatticePoints (Hull rows) S)
    (tris : ℕ → List (Vec (m + 1)) → ℕ → Except Fail (List (List (Vec (m + 1))) × ℕ)) (ht : ∀ t, TriangulationOk (tris t)) (T : ℕ)
    (htot : ∀ t ≤ T, ∀ L : List (Vec (m + 1)), Spans L → ∀ k, ∃ parts k', tris t L k = .ok (parts, k') ∧ ∀ p ∈ parts, p.length = m + 1) :
    ∃ D : ℕ → List (Cone (m + 1)), (∀ t ≤ T, ∃ lam, GenericFor lam (D t)) ∧ ∀ (guesses : ℕ → Vec (m + 1)), GenericFor (guesses T) (D T) →
      ∀ tries, T < tries → countVrep rows res dual N X irr maxDet fuel tries tris guesses = .number S.length := by
  obtain ⟨ineqs, hP⟩ := exists_inequalities (n := m + 1) rows
  obtain ⟨cones, out, hco, ho, hver, hvl, hc, hf⟩ := vrep_dualized hp ha hi hint dual hd ineqs hP
  have hnr := normalRays_of (fun C hC => (hc C hC).2.1) hf
  have hvl' : IsVertexList (normals ineqs) (sides ineqs) ((out.map fun C => (C.vertex, C.rays)).map (·.1)) := by
    rw [List.map_map]
    have := forall₂_vertex (fun C D h => h.1) hf
    rw [← this] at hvl
    exact hvl
  obtain ⟨D, hD, h⟩ := c75_count_total N hN hsv X irr maxDet h1 hmax fuel hfuel (normals ineqs) (sides ineqs) S (lattice_hull hP S hS)
    (out.map fun C => (C.vertex, C.rays)) hvl' hnr tris ht T (fun t hT c hc' k => htot t hT c.2
      (spans_of_vertex (normals ineqs) (sides ineqs) c.1 ((hvl'.mem _).1 ⟨c.1, List.mem_map_of_mem hc', rfl⟩) c.2 (hnr c hc')) k)
  refine ⟨D, hD, fun guesses hg tries hT => ?_⟩
  unfold countVrep
  rw [hco]
  simp only [ho, h guesses hg tries hT]

end Verif.Vrep
