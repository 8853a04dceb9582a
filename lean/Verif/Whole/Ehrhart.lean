import Verif.Whole.Rows
import Verif.Regular.Ehrhart

/-!
# C92: `count --ehrhart-polynomial FILE`, from the text of the file to the coefficients
-/

namespace Verif.Whole

open Verif.Barvinok Verif.Barvinok.Spec Verif.Ti2 Verif.Brion Verif.ExpSubst Verif.Files Verif.Preprocess

variable {n d : ℕ}

/-! ## Model -/

/-- How a run in Ehrhart mode ends: with coefficients on standard output (constant term first), or as before. -/
inductive EhrhartEnding where
  | polynomial (coeffs : List ℚ)
  | other (e : Ending)

/-- count.cpp:378–396: every vertex is kept as `ehrhart_vertex` and replaced by zero; `none` is `pe_RationalPolytope`. -/
def moveToOrigin : List (GCone n) → Option (List (GCone n × Vec n))
  | [] => some []
  | C :: cs =>
    match ehrhartVertex C.vertex with
    | none => none
    | some ev =>
      match moveToOrigin cs with
      | none => none
      | some out => some (({ C with vertex := 0 }, ev) :: out)

/-- `matrixToVerticesOrCones` with cdd, tight inequalities, translation to the origin, tight inequalities again, dualization, substitution (count.cpp:354–412, 580–603). -/
def ehrhartRows (T : Tools) (L : Limits) : ∀ d, List (Row d) → EhrhartEnding
  | 0, _ => .other .undefined
  | d + 1, rows =>
    let ineqs : List (ℤ × Vec (d + 1)) := rows.map fun r => (r.b, r.a)
    match (CddV.computeVertexCones (T.vertices (d + 1) ineqs).1 (T.vertices (d + 1) ineqs).2 : CddV.Outcome (d + 1)) with
    | .done (some k) => .other (.number k)
    | .done none => .other .noNumber
    | .stop => .other .stop
    | .undefined => .other .undefined
    | .cones cones =>
      match moveToOrigin (cones.map (tightFacets ineqs)) with
      | none => .other .stop
      | some moved =>
        match dualizeCones T.rays (moved.map fun c => tightFacets ineqs c.1) with
        | .error e => .other (.failed e)
        | .ok dual =>
          match Regular.triangulateAndEhrhart (T.ntl d) T.xgcd .dual (T.irr d) L.maxDet L.fuel
              (List.zipWith (fun (C : GCone (d + 1)) ev => ⟨C.vertex, ev, C.rays⟩) dual (moved.map (·.2))) L.tries (T.triangulate d) (T.guess d) with
          | .ok coeffs => .polynomial ((List.range (d + 2)).map coeffs)
          | .error e => .other (.failed e)

/-- **`count --ehrhart-polynomial FILE`.** -/
def ehrhartFile (T : Tools) (L : Limits) (s : List Char) : EhrhartEnding :=
  match fileRows T L.hermite s with
  | .ended e => .other e
  | .rows d l => ehrhartRows T L d l

/-! ## Specification -/

/-- **Specification.** The integer points of the `t`-fold dilation of the solutions. -/
def dilatedPoints (P : Empty.Problem n) (t : ℕ) : Set (Fin n → ℤ) := {z | (fun k => (z k : ℝ) / t) ∈ P.Solutions}

/-- **Specification.** The value of the polynomial with these coefficients, constant term first. -/
def polyValue (coeffs : List ℚ) (t : ℚ) : ℚ := coeffs.foldr (fun c v => c + t * v) 0

/-- **Specification.** All vertices are integral. -/
def IntegralPolytope (A : Set (Fin n → ℝ)) : Prop := ∀ x ∈ A.extremePoints ℝ, ∃ z : Fin n → ℤ, x = fun k => (z k : ℝ)

theorem polyValue_range (c : ℕ → ℚ) (t : ℚ) (N : ℕ) : polyValue ((List.range N).map c) t = ∑ k ∈ Finset.range N, c k * t ^ k := by
  induction N generalizing c with
  | zero => rfl
  | succ N ih =>
    rw [List.range_succ_eq_map, List.map_cons, List.map_map, Finset.sum_range_succ']
    have h : polyValue (c 0 :: (List.range N).map (c ∘ Nat.succ)) t = c 0 + t * polyValue ((List.range N).map (c ∘ Nat.succ)) t := rfl
    rw [h, ih, Finset.mul_sum, pow_zero, mul_one, add_comm]
    congr 1
    refine Finset.sum_congr rfl fun k _ => ?_
    simp only [Function.comp_apply, Nat.succ_eq_add_one]
    ring

/-! ## The cones -/

theorem moveToOrigin_some (ineqs : List (ℤ × Vec n)) : ∀ (cs : List (GCone n)) (moved : List (GCone n × Vec n)), (∀ C ∈ cs, C.facets ≠ []) →
    moveToOrigin cs = some moved → (∀ c ∈ moved, c.1.facets ≠ []) ∧
      Regular.originCones (cs.map fun C => (C.vertex, C.facets)) =
        some (List.zipWith (fun (C : GCone n) ev => ⟨C.vertex, ev, C.rays⟩) ((moved.map fun c => tightFacets ineqs c.1).map GCone.swap) (moved.map (·.2))) := by
  intro cs
  induction cs with
  | nil =>
    intro moved _ h
    cases h
    exact ⟨by simp, rfl⟩
  | cons C cs ih =>
    intro moved hne h
    unfold moveToOrigin at h
    cases hev : ehrhartVertex C.vertex with
    | none => rw [hev] at h; cases h
    | some ev =>
      rw [hev] at h
      cases ho : moveToOrigin cs with
      | none => rw [ho] at h; cases h
      | some out =>
        rw [ho] at h
        cases h
        obtain ⟨h1, h2⟩ := ih out (fun C hC => hne C (List.mem_cons_of_mem _ hC)) ho
        have hf : C.facets ≠ [] := hne C List.mem_cons_self
        refine ⟨fun c hc => ?_, ?_⟩
        · rcases List.mem_cons.1 hc with rfl | hc
          · exact hf
          · exact h1 c hc
        · rw [List.map_cons]
          unfold Regular.originCones
          rw [hev, h2]
          dsimp only
          rw [List.map_cons, List.map_cons, List.map_cons, List.zipWith_cons_cons, tightFacets_id ineqs { C with vertex := 0 } hf]
          rfl

theorem moveToOrigin_none (cs : List (GCone n)) : moveToOrigin cs = none ↔ ∃ C ∈ cs, ¬ ∃ z : Vec n, ∀ k, (z k : ℚ) = C.vertex k := by
  induction cs with
  | nil => simp [moveToOrigin]
  | cons C cs ih =>
    unfold moveToOrigin
    cases h : ehrhartVertex C.vertex with
    | none => simpa using Or.inl ((ehrhartVertex_none C.vertex).1 h)
    | some ev =>
      dsimp only
      have hex : ∃ z : Vec n, ∀ k, (z k : ℚ) = C.vertex k := ⟨ev, ehrhartVertex_some _ _ h⟩
      cases h2 : moveToOrigin cs with
      | none =>
        obtain ⟨c', hc', hn⟩ := ih.1 h2
        simp only [true_iff]
        exact ⟨c', List.mem_cons_of_mem _ hc', hn⟩
      | some out =>
        simp only [List.mem_cons, exists_eq_or_imp, reduceCtorEq, false_iff, not_or]
        refine ⟨fun h => h hex, fun h3 => ?_⟩
        rw [ih.2 h3] at h2
        cases h2

/-- The integer points of the dilations of a bounded polyhedron, as a list. -/
theorem dilated_list (l : List (Row d)) (hb : Bornology.IsBounded (Polyhedron (pairs l))) (t : ℕ) (ht : 1 ≤ t) :
    ∃ S, LatticePoints (normals (pairs l)) (dilate t (sides (pairs l))) S ∧ S.length = (feasible (l.map (dilateRow t))).ncard := by
  have htp : (0 : ℝ) < t := by
    have : (1 : ℝ) ≤ t := by exact_mod_cast ht
    linarith
  have hmem : ∀ z : Vec d, z ∈ feasible (l.map (dilateRow t)) ↔ ∀ i, ∑ k, (normals (pairs l) i k : ℚ) * (z k : ℚ) ≤ dilate t (sides (pairs l)) i := by
    intro z
    show (∀ r ∈ l.map (dilateRow t), 0 ≤ r.eval 1 z) ↔ _
    have key : ∀ i : Fin (pairs l).length, ∑ k, (normals (pairs l) i k : ℚ) * (z k : ℚ) ≤ dilate t (sides (pairs l)) i ↔
        0 ≤ t * ((pairs l).get i).1 + ∑ k, ((pairs l).get i).2 k * z k := by
      intro i
      have e : ∑ k, ((-((pairs l).get i).2 k : ℤ) : ℚ) * (z k : ℚ) = -((∑ k, ((pairs l).get i).2 k * z k : ℤ) : ℚ) := by
        push_cast
        rw [← Finset.sum_neg_distrib]
        exact Finset.sum_congr rfl fun k _ => by ring
      show ∑ k, ((-((pairs l).get i).2 k : ℤ) : ℚ) * (z k : ℚ) ≤ t * (((pairs l).get i).1 : ℚ) ↔ _
      rw [e]
      have e2 : (((t : ℤ) * ((pairs l).get i).1 + ∑ k, ((pairs l).get i).2 k * z k : ℤ) : ℚ) =
          (t : ℚ) * (((pairs l).get i).1 : ℚ) + ((∑ k, ((pairs l).get i).2 k * z k : ℤ) : ℚ) := by push_cast; rfl
      constructor
      · intro h
        have : (0 : ℚ) ≤ (((t : ℤ) * ((pairs l).get i).1 + ∑ k, ((pairs l).get i).2 k * z k : ℤ) : ℚ) := by rw [e2]; linarith
        exact_mod_cast this
      · intro h
        have : (0 : ℚ) ≤ (((t : ℤ) * ((pairs l).get i).1 + ∑ k, ((pairs l).get i).2 k * z k : ℤ) : ℚ) := by exact_mod_cast h
        rw [e2] at this
        linarith
    simp only [key]
    have hq : (∀ i : Fin (pairs l).length, 0 ≤ t * ((pairs l).get i).1 + ∑ k, ((pairs l).get i).2 k * z k) ↔ ∀ q ∈ pairs l, 0 ≤ t * q.1 + ∑ k, q.2 k * z k := by
      constructor
      · intro h q hq
        obtain ⟨i, rfl⟩ := List.get_of_mem hq
        exact h i
      · intro h i
        exact h _ (List.get_mem _ i)
    rw [hq]
    unfold pairs
    simp only [List.mem_map, forall_exists_index, and_imp, forall_apply_eq_imp_iff₂]
    refine forall_congr' fun r => imp_congr_right fun _ => ?_
    unfold dilateRow Row.eval
    rw [one_mul]
  have hfin : (feasible (l.map (dilateRow t))).Finite := by
    refine (finite_of_bounded (hb.smul₀ (t : ℝ))).subset fun z hz => ?_
    refine ⟨fun j => (z j : ℝ) / t, fun q hq => ?_, ?_⟩
    · obtain ⟨r, hr, rfl⟩ := List.mem_map.1 hq
      have h1 : 0 ≤ (dilateRow t r).eval 1 z := hz _ (List.mem_map_of_mem hr)
      have h2 : (0 : ℝ) ≤ (((dilateRow t r).eval 1 z : ℤ) : ℝ) := by exact_mod_cast h1
      have e : (((dilateRow t r).eval 1 z : ℤ) : ℝ) = t * ((r.b : ℝ) + dot r.a fun j => (z j : ℝ) / t) := by
        unfold dilateRow Row.eval dot
        push_cast
        rw [mul_add, Finset.mul_sum, one_mul]
        congr 1
        refine Finset.sum_congr rfl fun j _ => ?_
        field_simp
      rw [e] at h2
      exact nonneg_of_mul_nonneg_right h2 htp
    · funext j
      show (t : ℝ) * ((z j : ℝ) / t) = z j
      field_simp
  refine ⟨hfin.toFinset.toList, ⟨Finset.nodup_toList _, fun z => ?_⟩, ?_⟩
  · rw [Finset.mem_toList, Set.Finite.mem_toFinset, hmem]
  · rw [Finset.length_toList, Set.ncard_eq_toFinset_card _ hfin]

/-- What happens for inequalities of a bounded polyhedron, when cdd lists at least two vertices. -/
theorem ehrhartRows_eq {T : Tools} (hT : T.Ok) (rows : List (Row (d + 1))) (hb : Bornology.IsBounded (Polyhedron (pairs rows)))
    (h2 : 2 ≤ (T.vertices (d + 1) (pairs rows)).1.length) :
    ∃ l : List ((Fin (d + 1) → ℚ) × List (Vec (d + 1))), IsVertexList (normals (pairs rows)) (sides (pairs rows)) (l.map (·.1)) ∧
      Regular.NormalRays (normals (pairs rows)) (sides (pairs rows)) l ∧
      ∀ (L : Limits) guess, ehrhartRows { T with guess := guess } L (d + 1) rows = match Regular.originCones l with
        | none => .other .stop
        | some moved =>
          match Regular.triangulateAndEhrhart (T.ntl d) T.xgcd .dual (T.irr d) L.maxDet L.fuel moved L.tries (T.triangulate d) (guess d) with
          | .ok coeffs => .polynomial ((List.range (d + 2)).map coeffs)
          | .error e => .other (.failed e) := by
  have hc := hT.vertices (d + 1) (pairs rows)
  obtain ⟨cones, hco, hver, hvs, hcs⟩ := CddV.c88_cones (Nat.succ_pos d) hc hb h2
  have hcomp : ∀ C ∈ cones, (tightFacets (pairs rows) C).facets = computeTight (pairs rows) C.vertex [] := by
    intro C hC
    unfold tightFacets
    rw [(hcs C hC).2.2.2.1]
  have hne : ∀ C ∈ cones.map (tightFacets (pairs rows)), C.facets ≠ [] := by
    intro C' hC' h0
    obtain ⟨C, hC, rfl⟩ := List.mem_map.1 hC'
    rw [hcomp C hC] at h0
    have hx := (hvs.mem _).1 ⟨C.vertex, List.mem_map_of_mem hC, rfl⟩
    have hg := Regular.normalRays_tight (pairs rows) [C.vertex] (C.vertex, computeTight (pairs rows) C.vertex []) (by simp)
    have := Regular.spans_of_vertex (normals (pairs rows)) (sides (pairs rows)) C.vertex hx _ hg (fun _ => 1) (by simp only [h0]; simp)
    have h1 := congrFun this 0
    norm_num at h1
  have hl : (cones.map (tightFacets (pairs rows))).map (fun C => (C.vertex, C.facets)) =
      (cones.map (·.vertex)).map fun v => (v, computeTight (pairs rows) v []) := by
    rw [List.map_map, List.map_map]
    refine List.map_congr_left fun C hC => ?_
    show (C.vertex, (tightFacets (pairs rows) C).facets) = (C.vertex, computeTight (pairs rows) C.vertex [])
    rw [hcomp C hC]
  refine ⟨(cones.map (tightFacets (pairs rows))).map fun C => (C.vertex, C.facets), ?_, ?_, fun L guess => ?_⟩
  · rw [hl, List.map_map]
    exact (List.map_id _).symm ▸ hvs
  · rw [hl]
    exact Regular.normalRays_tight _ _
  · unfold ehrhartRows
    change (match (CddV.computeVertexCones (T.vertices (d + 1) (pairs rows)).1 (T.vertices (d + 1) (pairs rows)).2 : CddV.Outcome (d + 1)) with
      | .done (some k) => EhrhartEnding.other (Ending.number k)
      | .done none => EhrhartEnding.other Ending.noNumber
      | .stop => EhrhartEnding.other Ending.stop
      | .undefined => EhrhartEnding.other Ending.undefined
      | .cones cones =>
        match moveToOrigin (cones.map (tightFacets (pairs rows))) with
        | none => EhrhartEnding.other Ending.stop
        | some moved =>
          match dualizeCones T.rays (moved.map fun c : GCone (d + 1) × Vec (d + 1) => tightFacets (pairs rows) c.1) with
          | .error e => EhrhartEnding.other (Ending.failed e)
          | .ok dual =>
            match Regular.triangulateAndEhrhart (T.ntl d) T.xgcd .dual (T.irr d) L.maxDet L.fuel
                (List.zipWith (fun (C : GCone (d + 1)) ev => ⟨C.vertex, ev, C.rays⟩) dual (moved.map fun c : GCone (d + 1) × Vec (d + 1) => c.2)) L.tries (T.triangulate d) (guess d) with
            | .ok coeffs => EhrhartEnding.polynomial ((List.range (d + 2)).map coeffs)
            | .error e => EhrhartEnding.other (Ending.failed e)) = _
    rw [hco]
    dsimp only
    cases hm : moveToOrigin (cones.map (tightFacets (pairs rows))) with
    | none =>
      have : Regular.originCones ((cones.map (tightFacets (pairs rows))).map fun C => (C.vertex, C.facets)) = none := by
        rw [Regular.originCones_none]
        obtain ⟨C, hC, h⟩ := (moveToOrigin_none _).1 hm
        exact ⟨(C.vertex, C.facets), List.mem_map_of_mem hC, h⟩
      rw [this]
    | some moved =>
      obtain ⟨h3, h4⟩ := moveToOrigin_some (pairs rows) _ moved hne hm
      rw [h4]
      dsimp only
      rw [dualizeCones_swap T.rays _ (by
        intro C hC
        obtain ⟨c, hc, rfl⟩ := List.mem_map.1 hC
        rw [tightFacets_id _ _ (h3 c hc)]
        exact h3 c hc)]

/-- Fewer vertices mean at most one point. -/
theorem subsingleton_of_few {T : Tools} (hT : T.Ok) (rows : List (Row d)) (hb : Bornology.IsBounded (Polyhedron (pairs rows)))
    (h1 : (T.vertices d (pairs rows)).1.length ≤ 1) : (Polyhedron (pairs rows)).Subsingleton := by
  have hc := hT.vertices d (pairs rows)
  have hvs := hc.vertices (CddV.no_direction hc hb)
  match hr : (T.vertices d (pairs rows)).1, h1 with
  | [], _ =>
    intro x hx
    obtain ⟨y, hy⟩ := CddV.exists_vertex hb ⟨x, hx⟩
    rw [polyhedron_eq] at hy
    obtain ⟨v, hv, -⟩ := (hvs.mem y).2 hy
    rw [hr] at hv
    simp at hv
  | [r], _ =>
    rw [hr] at hvs
    rw [CddV.single_point _ hvs hb]
    exact Set.subsingleton_singleton
  | _ :: _ :: _, h1 => simp at h1


/-- With at most one vertex no polynomial is printed: `computeVertexCones` ends the program. -/
theorem ehrhartRows_few {T : Tools} (hT : T.Ok) (L : Limits) (rows : List (Row (d + 1))) (hb : Bornology.IsBounded (Polyhedron (pairs rows)))
    (h1 : (T.vertices (d + 1) (pairs rows)).1.length ≤ 1) (coeffs : List ℚ) : ehrhartRows T L (d + 1) rows ≠ .polynomial coeffs := by
  obtain ⟨S, hS, hmem, -⟩ := feasible_list rows hb
  have h := CddV.c88_few_vertices (hT.vertices (d + 1) (pairs rows)) hb h1 S hS hmem
  intro hc
  unfold ehrhartRows at hc
  change (match (CddV.computeVertexCones (T.vertices (d + 1) (pairs rows)).1 (T.vertices (d + 1) (pairs rows)).2 : CddV.Outcome (d + 1)) with
      | .done (some k) => EhrhartEnding.other (Ending.number k)
      | .done none => EhrhartEnding.other Ending.noNumber
      | .stop => EhrhartEnding.other Ending.stop
      | .undefined => EhrhartEnding.other Ending.undefined
      | .cones cones => _) = _ at hc
  rw [h] at hc
  cases hc

/-- Integral vertices of the reduced polyhedron are integral vertices of the solutions. -/
theorem integral_iff {A : Set (Fin n → ℝ)} {l : List (Row d)} {p : Fin n → ℤ} {B : Fin d → Fin n → ℤ} (h : Coordinates A l p B) (vs : List (Fin d → ℚ))
    (hvs : IsVertexList (normals (pairs l)) (sides (pairs l)) vs) : IntegralPolytope A ↔ ∀ v ∈ vs, ∃ z : Vec d, ∀ k, (z k : ℚ) = v k := by
  have hx : ∀ v : Fin d → ℚ, (∃ z : Fin d → ℤ, (CddV.real v) = fun j => (z j : ℝ)) ↔ ∃ z : Vec d, ∀ k, (z k : ℚ) = v k := by
    intro v
    refine exists_congr fun z => ?_
    rw [funext_iff]
    refine forall_congr' fun k => ?_
    unfold CddV.real
    rw [eq_comm]
    exact_mod_cast Iff.rfl
  constructor
  · intro hA v hv
    have h1 := (hvs.mem _).1 ⟨v, hv, rfl⟩
    rw [← polyhedron_eq] at h1
    exact (hx v).1 ((h.lattice _).2 (hA _ ((h.extreme _).1 h1)))
  · intro hv x hxA
    have : x ∈ liftReal p B '' Polyhedron (pairs l) := by rw [h.points]; exact hxA.1
    obtain ⟨y, -, rfl⟩ := this
    have h1 := (h.extreme y).2 hxA
    rw [polyhedron_eq] at h1
    obtain ⟨v, hmem, rfl⟩ := (hvs.mem y).2 h1
    exact (h.lattice _).1 ((hx v).2 (hv v hmem))

/-- A polytope has a vertex. -/
theorem solutions_vertex {T : Tools} (hT : T.Ok) (P : Empty.Problem n) (h : P.Ok) (hd : P.Directions = {0}) (hne : P.Solutions.Nonempty) :
    (P.Solutions.extremePoints ℝ).Nonempty := by
  have hc : Canonical n (matrix P) (T.canonicalize (matrix P)) := hT.canonicalize n (matrix P) rfl rfl (matrix_length P) (by rw [sols_matrix P h]; exact hne)
  have hsplit := split_canonical P h hc
  have hb := bounded_of_directions _ (hsplit.directions hne hd)
  rw [← hsplit.solutions] at hne ⊢
  exact CddV.exists_vertex hb hne

theorem polynomial_value {P : Empty.Problem n} {l : List (Row (d + 1))} {p : Fin n → ℤ} {B : Fin (d + 1) → Fin n → ℤ} (h : Coordinates P.Solutions l p B)
    (hb : Bornology.IsBounded (Polyhedron (pairs l))) (coeffs : ℕ → ℚ) (hE : IsEhrhart (normals (pairs l)) (sides (pairs l)) coeffs) (t : ℕ) (ht : 1 ≤ t) :
    polyValue ((List.range (d + 2)).map coeffs) t = (dilatedPoints P t).ncard := by
  obtain ⟨S, hS, hlen⟩ := dilated_list l hb t ht
  rw [polyValue_range, hE t ht S hS, hlen, h.ncard t ht]
  rfl

/-- **C92: the polynomial printed for a file counts the integer points of all dilations.** Whatever the random numbers and triangulations are. -/
theorem c92_ehrhart {T : Tools} (hT : T.Ok) {L : Limits} (hm0 : L.maxDet ≠ 0) (hmax : L.maxDet ≤ Piped.intMax) (hfuel : L.maxDet < L.fuel) (hn : 0 < n)
    (P : Empty.Problem n) (h : P.Ok) (hs : Small P) (h0 : P.rows ≠ []) (hf : P.nonnegFirst = false) (hd : P.Directions = {0})
    {coeffs : List ℚ} (hr : ehrhartFile T L (text P) = .polynomial coeffs) :
    IntegralPolytope P.Solutions ∧ ∀ t : ℕ, 1 ≤ t → polyValue coeffs t = (dilatedPoints P t).ncard := by
  unfold ehrhartFile at hr
  rcases (c92_rows hT hn P h hs h0 hf hd).1 L.hermite with hst | hst
  · cases hc : fileRows T L.hermite (text P) with
    | ended e =>
      rw [hc] at hr
      cases hr
    | rows d l =>
      rw [hc] at hst hr
      obtain ⟨hd0, hb, p, B, hco⟩ := hst
      obtain ⟨d, rfl⟩ := Nat.exists_eq_succ_of_ne_zero hd0.ne'
      dsimp only at hr
      by_cases h2 : 2 ≤ (T.vertices (d + 1) (pairs l)).1.length
      · obtain ⟨cl, hvs, hnr, heq⟩ := ehrhartRows_eq hT l hb h2
        have heq := heq L T.guess
        change ehrhartRows T L (d + 1) l = _ at heq
        rw [heq] at hr
        cases hm : Regular.originCones cl with
        | none => rw [hm] at hr; cases hr
        | some moved =>
          rw [hm] at hr
          dsimp only at hr
          split at hr
          · rename_i c hk
            cases hr
            have hE := Regular.c69_triangulated (T.ntl d) (hT.ntl d) T.xgcd (T.irr d) L.maxDet hm0 hmax L.fuel hfuel _ _ cl hvs hnr moved hm L.tries _ (hT.triangulate d) _ c hk
            refine ⟨(integral_iff hco _ hvs).2 fun v hv => ?_, fun t ht => polynomial_value hco hb c hE t ht⟩
            obtain ⟨c', hc', rfl⟩ := List.mem_map.1 hv
            by_contra hno
            rw [(Regular.originCones_none cl).2 ⟨c', hc', hno⟩] at hm
            cases hm
          · cases hr
      · exact absurd hr (ehrhartRows_few hT L l hb (by omega) coeffs)
  · rw [hst] at hr
    cases hr

/-- **C92: polytopes with a vertex that is not integral are refused**, whatever the random numbers, triangulations and limits are. -/
theorem c92_rejects {T : Tools} (hT : T.Ok) (L : Limits) (hn : 0 < n)
    (P : Empty.Problem n) (h : P.Ok) (hs : Small P) (h0 : P.rows ≠ []) (hf : P.nonnegFirst = false) (hd : P.Directions = {0})
    (hni : ¬ IntegralPolytope P.Solutions) (coeffs : List ℚ) : ehrhartFile T L (text P) ≠ .polynomial coeffs := by
  intro hr
  unfold ehrhartFile at hr
  rcases (c92_rows hT hn P h hs h0 hf hd).1 L.hermite with hst | hst
  · cases hc : fileRows T L.hermite (text P) with
    | ended e =>
      rw [hc] at hr
      cases hr
    | rows d l =>
      rw [hc] at hst hr
      obtain ⟨hd0, hb, p, B, hco⟩ := hst
      obtain ⟨d, rfl⟩ := Nat.exists_eq_succ_of_ne_zero hd0.ne'
      dsimp only at hr
      by_cases h2 : 2 ≤ (T.vertices (d + 1) (pairs l)).1.length
      · obtain ⟨cl, hvs, hnr, heq⟩ := ehrhartRows_eq hT l hb h2
        have heq := heq L T.guess
        change ehrhartRows T L (d + 1) l = _ at heq
        rw [heq] at hr
        rw [integral_iff hco _ hvs] at hni
        have : Regular.originCones cl = none := by
          rw [Regular.originCones_none]
          push Not at hni
          obtain ⟨v, hv, hno⟩ := hni
          obtain ⟨c', hc', rfl⟩ := List.mem_map.1 hv
          refine ⟨c', hc', ?_⟩
          push Not
          exact hno
        rw [this] at hr
        cases hr
      · exact ehrhartRows_few hT L l hb (by omega) coeffs hr
  · rw [hst] at hr
    cases hr

/-- **C92: a polynomial is found.** For every integral polytope with more than one point, in the round `t`: there are finitely many cones such that the program prints a polynomial as
soon as the random vector of this round is generic for them (such vectors exist), the loop of the elimination may run long enough, and the round is reached. -/
theorem c92_total {T : Tools} (hT : T.Ok) (hsv : ∀ d, ShortVectors (T.ntl d)) (htri : TriangulationTotal T) (maxDet : ℤ) (fuel : ℕ) (h1 : 1 ≤ maxDet)
    (hmax : maxDet ≤ Piped.intMax) (hfuel : maxDet < fuel) (hn : 0 < n)
    (P : Empty.Problem n) (h : P.Ok) (hs : Small P) (h0 : P.rows ≠ []) (hf : P.nonnegFirst = false) (hd : P.Directions = {0})
    (hint : IntegralPolytope P.Solutions) (hmany : P.Solutions.Nontrivial) (t : ℕ) :
    ∃ (d N : ℕ) (D : List (Cone (d + 1) × Vec (d + 1))), (∃ lam, GenericForE lam D) ∧
      ∀ (guess : ∀ d, ℕ → Vec (d + 1)) (hermite tries : ℕ), GenericForE (guess d t) D → t < tries → N ≤ hermite →
        ∃ coeffs, ehrhartFile { T with guess := guess } ⟨maxDet, fuel, hermite, tries⟩ (text P) = .polynomial coeffs ∧
          ∀ t : ℕ, 1 ≤ t → polyValue coeffs t = (dilatedPoints P t).ncard := by
  obtain ⟨N, st, hst, hall⟩ := (c92_rows hT hn P h hs h0 hf hd).2
  have hfile : ∀ (guess : ∀ d, ℕ → Vec (d + 1)) hermite, fileRows { T with guess := guess } hermite (text P) = fileRows T hermite (text P) := by
    intro guess hermite
    have e2 : ∀ M, matrixRows { T with guess := guess } hermite M = matrixRows T hermite M := by
      intro M
      unfold matrixRows
      dsimp only
      generalize splitRows _ _ _ _ = w
      match w with
      | none => rfl
      | some (E, I) => rfl
    unfold fileRows
    dsimp only
    generalize Empty.checkEmpty _ _ = o
    match o with
    | none => rfl
    | some .exit1 => rfl
    | some .undefined => rfl
    | some (.thrown text) => rfl
    | some .done =>
      dsimp only
      generalize readLatteStyleMatrix _ _ _ _ = u
      match u with
      | .error => rfl
      | .outOfBounds => rfl
      | .ok M => exact e2 M
  cases st with
  | ended e =>
    exfalso
    rcases hst.2 with h1 | h1
    · exact Set.not_subsingleton_iff.2 hmany h1
    · obtain ⟨x, hx⟩ : (P.Solutions.extremePoints ℝ).Nonempty := solutions_vertex hT P h hd hmany.nonempty
      obtain ⟨z, hz⟩ := hint x hx
      have : z ∈ integerPoints P := by
        rw [integerPoints_iff, ← hz]
        exact hx.1
      rw [h1] at this
      exact this
  | rows d l =>
    obtain ⟨hd0, hb, p, B, hco⟩ := hst
    obtain ⟨d, rfl⟩ := Nat.exists_eq_succ_of_ne_zero hd0.ne'
    have h2 : 2 ≤ (T.vertices (d + 1) (pairs l)).1.length := by
      by_contra hlt
      have hsub := subsingleton_of_few hT l hb (Nat.lt_succ_iff.1 (not_le.1 hlt))
      have : P.Solutions.Subsingleton := by
        rw [← hco.points]
        exact hsub.image _
      exact Set.not_subsingleton_iff.2 hmany this
    obtain ⟨cl, hvs, hnr, heq⟩ := ehrhartRows_eq hT l hb h2
    have hi := (integral_iff hco _ hvs).1 hint
    obtain ⟨moved, hm, D, hD, hgo⟩ := Regular.c69_triangulated_total (T.ntl d) (hT.ntl d) (hsv d) T.xgcd (T.irr d) maxDet h1 hmax fuel hfuel _ _ cl hvs hnr
      (fun c hc => hi _ (List.mem_map_of_mem hc)) (T.triangulate d) (hT.triangulate d) t (fun s _ c hc k => htri d s c.2 (by
          refine Regular.spans_of_vertex _ _ c.1 ?_ c.2 (hnr c hc)
          exact (hvs.mem _).1 ⟨c.1, List.mem_map_of_mem hc, rfl⟩) k)
    refine ⟨d, N, D t, hD t le_rfl, fun guess hermite tries hg ht hN => ?_⟩
    obtain ⟨coeffs, hrun, hE⟩ := hgo (guess d) hg tries ht
    refine ⟨(List.range (d + 2)).map coeffs, ?_, fun s hs => polynomial_value hco hb coeffs hE s hs⟩
    unfold ehrhartFile
    dsimp only
    rw [hfile, hall hermite hN]
    dsimp only
    rw [heq, hm]
    dsimp only
    rw [hrun]

/-- **C92, violation.** For a polytope that is a single point no polynomial is printed, even if the point is integral (its counting polynomial is the constant 1). -/
theorem c92_point_violation {T : Tools} (hT : T.Ok) (L : Limits) (hn : 0 < n)
    (P : Empty.Problem n) (h : P.Ok) (hs : Small P) (h0 : P.rows ≠ []) (hf : P.nonnegFirst = false) (hd : P.Directions = {0})
    (hpt : P.Solutions.Subsingleton) (coeffs : List ℚ) : ehrhartFile T L (text P) ≠ .polynomial coeffs := by
  intro hr
  unfold ehrhartFile at hr
  rcases (c92_rows hT hn P h hs h0 hf hd).1 L.hermite with hst | hst
  · cases hc : fileRows T L.hermite (text P) with
    | ended e =>
      rw [hc] at hr
      cases hr
    | rows d l =>
      rw [hc] at hst hr
      obtain ⟨hd0, hb, p, B, hco⟩ := hst
      obtain ⟨d, rfl⟩ := Nat.exists_eq_succ_of_ne_zero hd0.ne'
      dsimp only at hr
      by_cases h2 : 2 ≤ (T.vertices (d + 1) (pairs l)).1.length
      · have hc := hT.vertices (d + 1) (pairs l)
        have hvs := hc.vertices (CddV.no_direction hc hb)
        have hsub : (Polyhedron (pairs l)).Subsingleton := by
          intro x hx y hy
          exact hco.inj (hpt (by rw [← hco.points]; exact ⟨x, hx, rfl⟩) (by rw [← hco.points]; exact ⟨y, hy, rfl⟩))
        have hmem : ∀ v ∈ (T.vertices (d + 1) (pairs l)).1.map CddV.rowPoint, CddV.real v ∈ Polyhedron (pairs l) := by
          intro v hv
          have := ((hvs.mem _).1 ⟨v, hv, rfl⟩).1
          rw [← polyhedron_eq] at this
          exact this
        match hrows : (T.vertices (d + 1) (pairs l)).1, h2 with
        | r1 :: r2 :: rs, _ =>
          rw [hrows] at hvs hmem
          have hne : (CddV.rowPoint r1 : Fin (d + 1) → ℚ) ≠ CddV.rowPoint r2 := by
            have := hvs.nodup
            simp only [List.map_cons, List.nodup_cons, List.mem_cons, not_or] at this
            exact this.1.1
          apply hne
          have e := hsub (hmem (CddV.rowPoint r1) (by simp)) (hmem (CddV.rowPoint r2) (by simp))
          funext k
          have ek := congrFun e k
          unfold CddV.real at ek
          exact_mod_cast ek
      · exact ehrhartRows_few hT L l hb (by omega) coeffs hr
  · rw [hst] at hr
    cases hr

end Verif.Whole
