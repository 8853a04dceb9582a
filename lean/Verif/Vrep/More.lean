import Verif.Vrep.Props
import Verif.CddV.Primal

/-!
# One point, the all-primal variant, the contract (C89)
-/

namespace Verif.Vrep

open Verif.Barvinok Verif.Barvinok.Spec Verif.Brion Verif.Ti2 Verif.Regular Verif.CddV Verif.ExpSubst

variable {n m : ℕ} {rows : List (List ℚ)} {res : Option (List Tok)}

/-! ## One point -/

theorem hull_one (row : List ℚ) : Hull [row] = {real (rowPoint (n := n) row)} := by
  unfold Hull
  have : (Points [row] : Set (Fin n → ℝ)) = {real (rowPoint row)} := by
    ext x
    constructor
    · rintro ⟨r, hr, rfl⟩
      rw [List.mem_singleton.1 hr]
      rfl
    · intro hx
      exact ⟨row, List.mem_singleton.2 rfl, hx⟩
  rw [this, convexHull_singleton]

/-- **C89, one point.** For one point, with leading entry 1, the number written is the number of integer points. -/
theorem c89_one_row (qs : List ℚ) (hl : qs.length = n) (S : List (Vec n)) (hS : IsLatticePoints (Hull [1 :: qs]) S) :
    (computeVertexConesFromVrep [1 :: qs] res : CddV.Outcome n) = .done (some S.length) := by
  have h1 : (computeVertexConesFromVrep [1 :: qs] res : CddV.Outcome n) = oneRow ('\n' :: printRow (1 :: qs)) := rfl
  rw [h1, oneRow_one]
  have hpt : ∀ k : Fin n, rowPoint (n := n) (1 :: qs) k = qs.get (k.cast hl.symm) := by
    intro k
    unfold rowPoint
    rw [List.getD_cons_succ, List.getD_cons_zero, div_one, List.getD_eq_getElem _ _ (by rw [hl]; exact k.2)]
    rfl
  have hz : ∀ z : Vec n, z ∈ S ↔ ∀ k, (z k : ℚ) = qs.get (k.cast hl.symm) := by
    intro z
    rw [hS.2, hull_one, Set.mem_singleton_iff]
    constructor
    · intro h k
      have := congrFun h k
      simp only [real] at this
      rw [hpt] at this
      exact_mod_cast this
    · intro h
      funext k
      simp only [real]
      rw [hpt, ← h k]
      simp
  by_cases hq : ∃ q ∈ qs, q.den ≠ 1
  · rw [if_pos hq]
    have : S = [] := by
      rw [List.eq_nil_iff_forall_not_mem]
      intro z hzS
      obtain ⟨q, hq, hd⟩ := hq
      obtain ⟨i, rfl⟩ := List.get_of_mem hq
      have := (hz z).1 hzS (i.cast hl)
      apply hd
      have e : (i.cast hl).cast hl.symm = i := rfl
      rw [e] at this
      rw [← this]
      rfl
    rw [this]
    rfl
  · rw [if_neg hq]
    push Not at hq
    let z0 : Vec n := fun k => (qs.get (k.cast hl.symm)).num
    have hall : ∀ z ∈ S, z = z0 := by
      intro z hzS
      funext k
      have := (hz z).1 hzS k
      show z k = (qs.get (k.cast hl.symm)).num
      rw [← this]
      rfl
    have hin : z0 ∈ S := (hz z0).2 fun k => by
      have := hq _ (List.get_mem qs (k.cast hl.symm))
      have h2 := Rat.num_div_den (qs.get (k.cast hl.symm))
      rw [this, Nat.cast_one, div_one] at h2
      exact h2
    have hlen : S.length = 1 := by
      have hr := List.eq_replicate_of_mem hall
      have hnd := hS.1
      rw [hr, List.nodup_replicate] at hnd
      have hpos := List.length_pos_of_mem hin
      omega
    rw [hlen]
    rfl

/-- **C89, violation.** The point 1/2, written with leading entry 2, is counted as an integer point. -/
theorem c89_one_row_violation : (∀ z : ℤ, (fun _ => (z : ℝ)) ∉ (Hull [[2, 1]] : Set (Fin 1 → ℝ))) ∧
    (computeVertexConesFromVrep [[2, 1]] none : CddV.Outcome 1) = .done (some 1) := by
  constructor
  · intro z hz
    rw [hull_one, Set.mem_singleton_iff] at hz
    have h1 := congrFun hz 0
    have h2 : rowPoint (n := 1) [2, 1] 0 = 1 / 2 := rfl
    simp only [real] at h1
    rw [h2] at h1
    have h3 : (2 * z : ℝ) = 1 := by rw [h1]; norm_num
    have h4 : 2 * z = 1 := by exact_mod_cast h3
    omega
  · have e : '\n' :: printRow [2, 1] = ['\n', ' ', '2', ' ', '1', '\n'] := by decide +kernel
    show oneRow ('\n' :: printRow [2, 1]) = _
    rw [e]
    rfl

/-! ## The all-primal variant -/

/-- **C89, the irrational all-primal variant.** For points none of which is redundant and whose convex hull has interior points, the cones are dualized twice; the cones keep
their order, vertices and rays, and get as facets the extreme rays of the normal cone, each once. -/
theorem c89_allPrimal (hp : IsPoints (m + 1) rows) (ha : AdjacencyOk (m + 1) rows res) (hi : Irredundant (m + 1) rows)
    (hint : (interior (Hull rows : Set (Fin (m + 1) → ℝ))).Nonempty) (dual : GCone (m + 1) → Except Fail (GCone (m + 1))) (hd : DualOk dual) :
    ∃ cones out, computeVertexConesFromVrep rows res = .cones cones ∧ allPrimalVrep dual cones = .ok out ∧
      List.Forall₂ (fun C D => D.vertex = C.vertex ∧ D.rays = C.rays ∧ generated D.rays = Directions (Hull rows) C.vertex ∧
        (∀ y, (∀ f ∈ D.facets, dot f y ≤ 0) ↔ y ∈ Directions (Hull rows) C.vertex) ∧ IsRayList (Polar C.rays) D.facets []) cones out := by
  obtain ⟨ineqs, hP⟩ := exists_inequalities (n := m + 1) rows
  obtain ⟨cones, once, hco, ho, hver, hvl, hc, hf⟩ := vrep_dualized hp ha hi hint dual hd ineqs hP
  have hrne : ∀ C ∈ cones, C.rays ≠ [] := by
    intro C hC h0
    have := Spans.le_length _ (hc C hC).1
    rw [h0] at this
    simp at this
  have hdir : ∀ C ∈ cones, tangent (normals ineqs) (sides ineqs) C.vertex = Directions (Hull rows) C.vertex := by
    intro C hC
    rw [← hP]
    refine tangent_eq ?_
    rw [polyhedron_eq]
    exact ((hvl.mem _).1 ⟨C.vertex, List.mem_map_of_mem hC, rfl⟩).1
  have hmem : ∀ D ∈ once, ∃ C ∈ cones, D.vertex = C.vertex ∧ D.facets = C.rays ∧ IsRayList (Polar C.rays) D.rays [] ∧ D.subspace = [] ∧ D.equalities = [] := by
    intro D hD
    obtain ⟨i, hi', rfl⟩ := List.getElem_of_mem hD
    have hl := hf.length_eq
    exact ⟨_, List.get_mem cones ⟨i, by rw [hl]; exact hi'⟩, (List.forall₂_iff_get.1 hf).2 i (by rw [hl]; exact hi') hi'⟩
  obtain ⟨out, ho2, hf2⟩ := dualizeAll_forall dual once (fun D E => E = D.swap) (fun D hD => by
    obtain ⟨C, hC, -, h2, -⟩ := hmem D hD
    exact ⟨D.swap, hd.2 D (by rw [h2]; exact hrne C hC), rfl⟩)
  have hout : List.Forall₂ (fun C D : GCone (m + 1) => D.vertex = C.vertex ∧ D.rays = C.rays ∧ IsRayList (Polar C.rays) D.facets []) cones out := by
    refine List.forall₂_iff_get.2 ⟨hf.length_eq.trans hf2.length_eq, fun i h1 h2 => ?_⟩
    have h3 : i < once.length := by rw [← hf.length_eq]; exact h1
    obtain ⟨a1, a2, a3, -⟩ := (List.forall₂_iff_get.1 hf).2 i h1 h3
    have a4 := (List.forall₂_iff_get.1 hf2).2 i h3 h2
    rw [a4]
    exact ⟨a1, a2, a3⟩
  have hkey : List.Forall₂ (fun C D : GCone (m + 1) => D.vertex = C.vertex ∧ D.rays = C.rays ∧ generated D.rays = Directions (Hull rows) C.vertex ∧
      (∀ y, (∀ f ∈ D.facets, dot f y ≤ 0) ↔ y ∈ Directions (Hull rows) C.vertex) ∧ IsRayList (Polar C.rays) D.facets []) cones out := by
    refine List.forall₂_iff_get.2 ⟨hout.length_eq, fun i h1 h2 => ?_⟩
    obtain ⟨a1, a2, a3⟩ := (List.forall₂_iff_get.1 hout).2 i h1 h2
    have hC := List.get_mem cones ⟨i, h1⟩
    refine ⟨a1, a2, by rw [a2, (hc _ hC).2.1]; exact hdir _ hC, fun y => ?_, a3⟩
    rw [← hdir _ hC, ← (hc _ hC).2.1, bipolar a3]
    simp
  refine ⟨cones, out, hco, ?_, hkey⟩
  have hlen : (out.all fun C => decide (m + 1 ≤ C.facets.length)) = true := by
    rw [List.all_eq_true]
    intro D hD
    rw [decide_eq_true_eq]
    obtain ⟨i, h2, rfl⟩ := List.getElem_of_mem hD
    have h1 : i < cones.length := by rw [hout.length_eq]; exact h2
    obtain ⟨a1, -, -, a4, -⟩ := (List.forall₂_iff_get.1 hkey).2 i h1 h2
    have hC := List.get_mem cones ⟨i, h1⟩
    refine Spans.le_length _ fun d hd' => ?_
    have b1 := (a4 d).1 fun f hf' => (hd' f hf').le
    have b2 := (a4 (-d)).1 fun f hf' => by
      have : dot f (-d) = -dot f d := by
        unfold dot
        rw [← Finset.sum_neg_distrib]
        exact Finset.sum_congr rfl fun k _ => by simp
      rw [this, hd' f hf', neg_zero]
    rw [← hdir _ hC] at b1 b2
    exact lin_tangent ((hvl.mem _).1 ⟨_, List.mem_map_of_mem hC, rfl⟩) ⟨b1, b2⟩
  unfold allPrimalVrep
  cases hcs : cones with
  | nil =>
    rw [hcs] at hout
    rw [List.forall₂_nil_left_iff] at hout
    rw [hout]
    rfl
  | cons C0 l =>
    have h0 : C0.facets = [] := (hc C0 (by rw [hcs]; exact List.mem_cons_self)).2.2.1
    rw [hcs] at ho
    simp only [h0, true_or, if_true, ho, ho2, hlen]

/-- **C89, counting in the irrational all-primal variant.** With triangulations of the cones that use no new rays, a number returned is the number of integer points of the
convex hull. -/
theorem c89_count_allPrimal (hp : IsPoints (m + 1) rows) (ha : AdjacencyOk (m + 1) rows res) (hi : Irredundant (m + 1) rows)
    (hint : (interior (Hull rows : Set (Fin (m + 1) → ℝ))).Nonempty) (dual : GCone (m + 1) → Except Fail (GCone (m + 1))) (hd : DualOk dual)
    (N : Ntl (m + 1)) (hN : N.Ok) (X : Smith.Xgcd) (irr : Cone (m + 1) → Fin (m + 1) → ℚ)
    (lp : Irrational.Solver (m + 1)) (hlp : Irrational.SolverOk lp) (depth : VertexCone (m + 1) → ℕ) (hdp : ∀ C, 1 ≤ depth C)
    (maxDet : ℤ) (h0 : maxDet ≠ 0) (hmax : maxDet ≤ Piped.intMax) (fuel : ℕ) (hfuel : maxDet < fuel)
    (cones out : List (GCone (m + 1))) (hco : computeVertexConesFromVrep rows res = .cones cones) (ho : allPrimalVrep dual cones = .ok out)
    (S : List (Vec (m + 1))) (hS : IsLatticePoints (Hull rows) S)
    (simplices : GCone (m + 1) → List (Mat (m + 1))) (hT : ∀ D ∈ out, Triangulation (simplices D) (generated D.rays))
    (hR : ∀ D ∈ out, ∀ B ∈ simplices D, ∀ i, B i ∈ D.rays) :
    ∃ moved, irrationalizeCones lp depth (out.map fun D => ⟨D.vertex, D.rays, D.facets, simplices D⟩) = some moved ∧
      ∀ (tries : ℕ) (guesses : ℕ → Vec (m + 1)) (r : ℤ),
        decomposeAndCount N X .irrationalAllPrimal irr maxDet fuel moved tries guesses = .ok r → r = S.length := by
  obtain ⟨ineqs, hP⟩ := exists_inequalities (n := m + 1) rows
  obtain ⟨cones', out', hco', ho', hf⟩ := c89_allPrimal hp ha hi hint dual hd
  rw [hco] at hco'
  obtain rfl := Outcome.cones.inj hco'
  rw [ho] at ho'
  obtain rfl := Except.ok.inj ho'
  obtain ⟨cones'', -, hco'', -, -, hvl, hc, -⟩ := vrep_dualized hp ha hi hint dual hd ineqs hP
  rw [hco] at hco''
  obtain rfl := Outcome.cones.inj hco''
  have hver := forall₂_vertex (fun C D h => h.1) hf
  refine c65_count_irrationalAllPrimal N hN X irr lp hlp depth hdp maxDet h0 hmax fuel hfuel (normals ineqs) (sides ineqs) S (lattice_hull hP S hS) _ ?_ ?_
  · rw [List.map_map]
    rw [← hver] at hvl
    exact hvl
  · intro C' hC'
    obtain ⟨D, hD, rfl⟩ := List.mem_map.1 hC'
    obtain ⟨i, h2, rfl⟩ := List.getElem_of_mem hD
    have h1 : i < cones.length := by rw [hf.length_eq]; exact h2
    obtain ⟨a1, a2, a3, a4, a5⟩ := (List.forall₂_iff_get.1 hf).2 i h1 h2
    have hC := List.get_mem cones ⟨i, h1⟩
    have hdir : tangent (normals ineqs) (sides ineqs) (cones.get ⟨i, h1⟩).vertex = Directions (Hull rows) (cones.get ⟨i, h1⟩).vertex := by
      rw [← hP]
      refine tangent_eq ?_
      rw [polyhedron_eq]
      exact ((hvl.mem _).1 ⟨_, List.mem_map_of_mem hC, rfl⟩).1
    have hnz : ∀ f ∈ (out.get ⟨i, h2⟩).facets, f ≠ 0 := by
      intro f hf' hf0
      have := (a5.extreme f hf').2.1
      rw [hf0] at this
      apply this
      intro r _
      simp [dot, toR]
    refine ⟨fun hnil => ?_, hnz, fun y => ?_, ?_, fun B hB j => hR _ hD B hB j⟩
    · have hnil' : (out.get ⟨i, h2⟩).facets = [] := hnil
      have hall : ∀ y, y ∈ Directions (Hull rows) (cones.get ⟨i, h1⟩).vertex := fun y => (a4 y).1 (by rw [hnil']; simp)
      rw [← hdir] at hall
      have := lin_tangent ((hvl.mem _).1 ⟨_, List.mem_map_of_mem hC, rfl⟩) (y := fun _ => 1) ⟨hall _, hall _⟩
      have := congrFun this 0
      simp at this
    · show (∀ f ∈ (out.get ⟨i, h2⟩).facets, dot f y ≤ 0) ↔ y ∈ tangent _ _ (out.get ⟨i, h2⟩).vertex
      rw [a1, hdir]
      exact a4 y
    · show Triangulation (simplices (out.get ⟨i, h2⟩)) (tangent _ _ (out.get ⟨i, h2⟩).vertex)
      rw [a1, hdir, ← a3]
      exact hT _ hD

/-! ## The contract -/

/-- **The contract of cddlib can be met**, for all points. -/
theorem adjacencyOk_satisfiable (n : ℕ) (rows : List (List ℚ)) : ∃ res, AdjacencyOk n rows res := by
  classical
  by_cases hi : Irredundant n rows
  · let vs := rows.map (rowPoint (n := n))
    let adj := Adjacent (Hull rows) vs
    let nb : ℕ → List ℤ := fun i => (upTo 1 (vs.length + 1)).filter fun k => decide (adj (i + 1) k)
    have hnb : ∀ i k, k ∈ nb i ↔ adj (i + 1) k := by
      intro i k
      rw [List.mem_filter, mem_upTo, decide_eq_true_eq]
      refine ⟨fun h => h.2, fun h => ⟨?_, h⟩⟩
      have := adjacent_range _ _ _ _ h
      omega
    refine ⟨some ((List.range rows.length).map fun i : ℕ => Tok.int ((i : ℤ) + 1) :: .int (nb i).length :: .word :: (nb i).map .int).flatten,
      ⟨fun h => by simp at h, fun h => absurd hi h⟩, fun ead he => ⟨_, by simp, (Option.some.inj he).symm, ?_⟩⟩
    intro i line hl
    rw [List.getElem?_map, Option.map_eq_some_iff] at hl
    obtain ⟨j, hj, rfl⟩ := hl
    obtain ⟨hj', rfl⟩ := List.getElem?_eq_some_iff.1 hj
    rw [List.getElem_range]
    exact ⟨_, _, rfl, Or.inl ⟨rfl, List.Nodup.filter _ (nodup_upTo _ _), hnb i⟩⟩
  · exact ⟨none, ⟨fun _ => hi, fun _ => rfl⟩, fun ead he => by simp at he⟩

/-- **Both kinds of input agree.** For a bounded polyhedron, cdd's list of vertices is an irredundant list of points with the polyhedron as their convex hull, and cdd's
adjacencies are those of the points. -/
theorem vrep_of_cdd {ineqs : List (ℤ × Vec n)} {ead : List Tok} (hc : CddOk ineqs rows ead) (hb : Bornology.IsBounded (Polyhedron ineqs)) :
    IsPoints n rows ∧ Hull rows = Polyhedron ineqs ∧ Irredundant n rows ∧ AdjacencyOk n rows (some ead) := by
  have hnd := no_direction hc hb
  have hvs := hc.vertices hnd
  have hpts : (Points rows : Set (Fin n → ℝ)) = (Polyhedron ineqs).extremePoints ℝ := by
    ext x
    rw [polyhedron_eq, ← hvs.mem x]
    constructor
    · rintro ⟨row, hr, rfl⟩
      exact ⟨_, List.mem_map_of_mem hr, rfl⟩
    · rintro ⟨v, hv, rfl⟩
      obtain ⟨row, hr, rfl⟩ := List.mem_map.1 hv
      exact ⟨row, hr, rfl⟩
  have hclosed : IsClosed (Polyhedron ineqs) := by
    have : Polyhedron ineqs = ⋂ q ∈ ineqs, {x : Fin n → ℝ | 0 ≤ (q.1 : ℝ) + dot q.2 x} := by
      ext x
      simp only [Set.mem_iInter]
      rfl
    rw [this]
    refine isClosed_biInter fun q _ => isClosed_le continuous_const ?_
    unfold dot
    fun_prop
  have hconv : Convex ℝ (Polyhedron ineqs) := by
    intro x hx y hy a b ha hb hab q hq
    have h1 := hx q hq
    have h2 := hy q hq
    have e : dot q.2 (a • x + b • y) = a * dot q.2 x + b * dot q.2 y := by
      unfold dot
      rw [Finset.mul_sum, Finset.mul_sum, ← Finset.sum_add_distrib]
      exact Finset.sum_congr rfl fun k _ => by simp; ring
    rw [e]
    have h3 := mul_nonneg ha h1
    have h4 := mul_nonneg hb h2
    have h5 : (q.1 : ℝ) = a * q.1 + b * q.1 := by rw [← add_mul, hab, one_mul]
    linarith
  have hcomp : IsCompact (Polyhedron ineqs) := Metric.isCompact_of_isClosed_isBounded hclosed hb
  have hH : Hull rows = Polyhedron ineqs := by
    have h1 := closure_convexHull_extremePoints hcomp hconv
    rw [← hpts] at h1
    rw [← h1]
    exact ((Set.Finite.isCompact_convexHull (𝕜 := ℝ) (finite_points rows)).isClosed.closure_eq).symm
  have hirr : Irredundant n rows := by
    refine ⟨hvs.nodup, fun row hr hm => ?_⟩
    have hx : real (rowPoint (n := n) row) ∈ (Polyhedron ineqs).extremePoints ℝ := by
      rw [← hpts]
      exact ⟨row, hr, rfl⟩
    rw [hconv.mem_extremePoints_iff_mem_sdiff_convexHull_sdiff] at hx
    refine hx.2 (convexHull_mono ?_ hm)
    intro y hy
    refine ⟨?_, hy.2⟩
    rw [← hH]
    exact subset_convexHull ℝ _ hy.1
  refine ⟨fun row hr => ?_, hH, hirr, ⟨⟨fun h => by simp at h, fun h => absurd hirr h⟩, fun ead' he => ?_⟩⟩
  · have h1 := (hc.lead row hr).resolve_left (hnd row hr)
    have h2 := hc.length row hr
    cases row with
    | nil => simp at h1
    | cons q qs =>
      simp only [List.head?_cons, Option.some.injEq] at h1
      exact ⟨q, qs, rfl, by rw [h1]; norm_num, by simpa using h2⟩
  · obtain rfl := Option.some.inj he
    rw [hH]
    exact hc.lines hnd

/-- **C89, directions (violated).** If at least two rows are given and one of them starts with 0, that is, the polyhedron is given by points and directions, the program
writes the number 0 and ends with status 0, whatever the points are. -/
theorem c89_direction_violation (h2 : 2 ≤ rows.length) {row : List ℚ} (hr : row ∈ rows) (h0 : row.head? = some 0) (res : Option (List Tok))
    (dual : GCone (m + 1) → Except Fail (GCone (m + 1))) (N : Ntl (m + 1)) (X : Smith.Xgcd) (irr : Cone (m + 1) → Fin (m + 1) → ℚ) (maxDet : ℤ) (fuel tries : ℕ)
    (tris : ℕ → List (Vec (m + 1)) → ℕ → Except Fail (List (List (Vec (m + 1))) × ℕ)) (guesses : ℕ → Vec (m + 1)) :
    countVrep rows res dual N X irr maxDet fuel tries tris guesses = .number 0 := by
  have h : (computeVertexConesFromVrep rows res : CddV.Outcome (m + 1)) = .done (some 0) := by
    match rows, h2 with
    | r1 :: r2 :: rest, _ =>
      unfold computeVertexConesFromVrep
      simp only [(readVertices_none _).2 ⟨row, hr, h0⟩]
  unfold countVrep
  rw [h]

/-- The half-line from 0 in direction 1, given as the point 0 and the direction 1, meets the hypotheses. -/
example : (2 ≤ ([[1, 0], [0, 1]] : List (List ℚ)).length) ∧ ([0, 1] : List ℚ) ∈ ([[1, 0], [0, 1]] : List (List ℚ)) ∧ ([0, 1] : List ℚ).head? = some 0 := by simp

end Verif.Vrep
