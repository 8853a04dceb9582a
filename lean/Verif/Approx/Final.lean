import Verif.Approx.Props
import Verif.Brion.Total

/-!
# C85: polyhedra, the end of the loop, and what goes wrong
-/

namespace Verif.Approx

open Verif.Barvinok Verif.Barvinok.Spec Verif.ExpSubst Verif.Irrational Verif.Brion

variable {m : ℕ}

/-! ### General position -/

/-- With the estimated depth and short vectors as good as Minkowski's theorem promises, the moved vertex is in general position for everything met. -/
theorem inPosition_of_estimate (N : Ntl (m + 1)) (hN : N.Ok) (maxDet : ℤ) (h1 : 1 ≤ maxDet) (depth : Cone (m + 1) → ℕ) (C C' : Cone (m + 1)) (hC : Wf C)
    (h : irrationalizeSimplicial depth C = some C') (hest : EstimateOk depth C) (hg : GoodSteps (params N maxDet) C') : InPosition N maxDet C' := by
  intro t D hr
  refine c64_irrational_below_estimate (params N maxDet) hN depth C C' hC h t D hr ?_
  by_contra hc
  push Not at hc
  obtain ⟨w, hw, -⟩ := c63_simplicial depth C hC (Nat.succ_pos m)
  rw [hw] at h
  obtain rfl := Option.some.inj h
  obtain ⟨k, hk, hsz⟩ := hest
  rw [hk] at hc
  have hlt : C.determinant.natAbs < 2 ^ Nat.size C.determinant.natAbs := Nat.lt_size_self _
  rcases hc.eq_or_lt with e | hlt'
  · exact not_deep (params N maxDet) h1 _ hg k _ hlt hsz D (e ▸ hr)
  · obtain ⟨D', h1', -⟩ := reach_prefix _ hr _ hlt'
    exact not_deep (params N maxDet) h1 _ hg k _ hlt hsz D' h1'

/-- The same for cones moved before the triangulation. -/
theorem inPosition_general (N : Ntl (m + 1)) (hN : N.Ok) (hS : N.ShortestRow) (maxDet : ℤ) (h1 : 1 ≤ maxDet) (lp : Solver (m + 1)) (hlp : SolverOk lp) (depth : ℕ)
    (rays F : List (Vec (m + 1))) (hest : EstimateGeneralOk depth rays) (hF : F ≠ []) (h0 : ∀ f ∈ F, f ≠ 0) (v u : Fin (m + 1) → ℚ) (hu : ∀ f ∈ F, 0 < dotQ f u)
    (w : Fin (m + 1) → ℚ) (hw : irrationalizeGeneral lp depth rays F v = some w) (B : Mat (m + 1)) (hr : ∀ i, B i ∈ rays) (D0 : Cone (m + 1))
    (hD0 : computeDetAndFacets ⟨1, w, B, 0, none, 0, 0⟩ = some D0) : InPosition N maxDet D0 := by
  obtain ⟨hwf, hrays, -, -⟩ := wf_computeDetAndFacets hD0
  have hg := goodSteps_of_shortestRow (params N maxDet) hN hS D0 hwf
  intro s D hreach
  obtain ⟨t, ht, hsz⟩ := hest
  have hlt : D0.determinant.natAbs < 2 ^ Nat.size (detEstimate rays).natAbs := by
    rw [hwf.det_eq, hrays]
    exact (det_le_estimate rays B hr).trans_lt (Nat.lt_size_self _)
  refine c64_general_below_estimate (params N maxDet) hN lp hlp depth rays F hF h0 v u hu w hw _ D0 (fun i j => le_maxCoord rays (B i) (hr i) j) rfl hD0 s D hreach ?_
  by_contra hc
  push Not at hc
  rw [ht] at hc
  rcases hc.eq_or_lt with e | hlt'
  · exact not_deep (params N maxDet) h1 D0 hg t _ hlt hsz D (e ▸ hreach)
  · obtain ⟨D', h1', -⟩ := reach_prefix _ hreach _ hlt'
    exact not_deep (params N maxDet) h1 D0 hg t _ hlt hsz D' h1'

theorem irrOk_irrVertex (depth : Cone (m + 1) → ℕ) : IrrOk (irrVertex depth) := by
  intro C z hC
  obtain ⟨w, hw, hsame, -⟩ := c63_simplicial depth C hC (Nat.succ_pos m)
  have : irrVertex depth C = w := by unfold irrVertex; rw [hw]; rfl
  rw [this]
  exact hsame z

/-- **Specification.** What is asked of a piece in the primal variant: no known facets, and primitive rays. -/
structure PrimalPiece (p : Piece (m + 1)) : Prop where
  facets : p.facets = none
  primitive : ∀ i, Prim (p.rays i)

theorem pieceOk_primal (N : Ntl (m + 1)) (hN : N.Ok) (hS : N.ShortestRow) (maxDet : ℤ) (h1 : 1 ≤ maxDet) (depth : Cone (m + 1) → ℕ)
    (hd : ∀ C, Wf C → EstimateOk depth C) (vertex : Fin (m + 1) → ℚ) (p : Piece (m + 1))
    (hdet : p.rays.det ≠ 0) (hp : PrimalPiece p) : PieceOk N maxDet .irrationalPrimal (irrVertex depth) vertex p := by
  refine ⟨hdet, fun _ => hp.facets, fun _ => hp.primitive, fun C hC => ?_⟩
  have hg := matrixGCD_of_prim p.rays hp.primitive
  obtain ⟨-, D, hd', hwf, -⟩ := start_wf p.rays hdet vertex
  rw [hg] at hd'
  unfold startCone at hC
  have hd'' : dualizeCone ⟨1, vertex, p.rays, 0, none, 0, 0⟩ = some D := by rw [← hd']; rfl
  simp only [hd'', Option.map_some, Option.some.injEq] at hC
  obtain ⟨w, hw, -⟩ := c63_simplicial depth D hwf (Nat.succ_pos m)
  have e : irrVertex depth D = w := by unfold irrVertex; rw [hw]; rfl
  rw [e] at hC
  rw [← hC]
  exact inPosition_of_estimate N hN maxDet h1 depth D _ hwf hw (hd D hwf) (goodSteps_of_shortestRow (params N maxDet) hN hS _ (wf_vertex hwf w))

/-! ### Polyhedra -/

/-- **C85, `count --approximate`** (the variant chosen by default).  Let `cones` be the vertices of a polyhedron with a triangulation of the normal cone of each.  For
every vector, every order in which the cones leave the heap and every bound for the index, all bounds shown enclose the number of lattice points, and if the loop ends
both final bounds are equal to it.  Partial: the pieces must carry no facets, and their rays must be primitive (see `c85_known_facets_undefined` and
`c85_not_primitive_wrong`). -/
theorem c85_irrationalPrimal_partial {k : ℕ} (N : Ntl (m + 1)) (hN : N.Ok) (hR : N.ShortestRow) (X : Smith.Xgcd) (depth : Cone (m + 1) → ℕ)
    (hd : ∀ C, Wf C → EstimateOk depth C) (maxDet : ℤ) (h1 : 1 ≤ maxDet)
    (hmax : maxDet ≤ Piped.intMax) (fuel : ℕ) (hfuel : maxDet < fuel) (rounds : ℕ) (lam : Vec (m + 1)) (pick : Pick (m + 1)) (hpick : PickOk pick)
    (a : Fin k → Vec (m + 1)) (b : Fin k → ℚ) (S : List (Vec (m + 1))) (hS : LatticePoints a b S)
    (cones : List ((Fin (m + 1) → ℚ) × List (Piece (m + 1)))) (hvs : IsVertexList a b (cones.map (·.1)))
    (hT : ∀ c ∈ cones, Triangulation (c.2.map (·.rays)) (normal a b c.1)) (hp : ∀ c ∈ cones, ∀ p ∈ c.2, PrimalPiece p) :
    (∀ s ∈ (approximate N X .irrationalPrimal (irrVertex depth) maxDet fuel rounds lam pick cones).2, s.1 ≤ S.length ∧ (S.length : ℚ) ≤ s.2) ∧
      ∀ s, (approximate N X .irrationalPrimal (irrVertex depth) maxDet fuel rounds lam pick cones).1 = .ok s → s.lower = S.length ∧ s.upper = S.length := by
  have e1 : (plain cones).map (·.1) = cones.map (·.1) := by unfold plain; rw [List.map_map]; rfl
  obtain ⟨g, hg, hind⟩ := dual_indicators a b (plain cones) (e1 ▸ hvs) (fun c hc => by
    obtain ⟨c', hc', rfl⟩ := List.mem_map.1 hc
    exact hT c' hc') S hS .irrationalPrimal (by decide)
  refine c85_cones N hN X .irrationalPrimal (by decide) _ (fun _ => irrOk_irrVertex depth) maxDet h1 hmax fuel hfuel rounds lam pick hpick cones
    (fun c hc p hpc => ?_) S hS.nodup g hg hind
  exact pieceOk_primal N hN hR maxDet h1 depth hd c.1 p ((hT c hc).simplicial _ (List.mem_map.2 ⟨p, hpc, rfl⟩)) (hp c hc p hpc)

/-- **C85, all-primal.** The same for the irrational all-primal variant, where the cones are moved before the triangulation and the facets of the pieces are dropped:
here nothing is asked of the pieces. -/
theorem c85_irrationalAllPrimal {k : ℕ} (N : Ntl (m + 1)) (hN : N.Ok) (hR : N.ShortestRow) (X : Smith.Xgcd) (irr : Cone (m + 1) → Fin (m + 1) → ℚ)
    (lp : Solver (m + 1)) (hlp : SolverOk lp) (depth : VertexCone (m + 1) → ℕ) (hd : ∀ C, EstimateGeneralOk (depth C) C.rays)
    (maxDet : ℤ) (h1 : 1 ≤ maxDet) (hmax : maxDet ≤ Piped.intMax) (fuel : ℕ)
    (hfuel : maxDet < fuel) (rounds : ℕ) (lam : Vec (m + 1)) (pick : Pick (m + 1)) (hpick : PickOk pick)
    (a : Fin k → Vec (m + 1)) (b : Fin k → ℚ) (S : List (Vec (m + 1))) (hS : LatticePoints a b S)
    (cones : List (VertexCone (m + 1))) (hvs : IsVertexList a b (cones.map (·.vertex))) (hC : ∀ C ∈ cones, TangentCone a b C) :
    ∃ moved, irrationalizeCones lp depth cones = some moved ∧ ∀ pieces : List ((Fin (m + 1) → ℚ) × List (Piece (m + 1))), plain pieces = moved →
      (∀ s ∈ (approximate N X .irrationalAllPrimal irr maxDet fuel rounds lam pick pieces).2, s.1 ≤ S.length ∧ (S.length : ℚ) ≤ s.2) ∧
        ∀ s, (approximate N X .irrationalAllPrimal irr maxDet fuel rounds lam pick pieces).1 = .ok s → s.lower = S.length ∧ s.upper = S.length := by
  have hd1 : ∀ C, 1 ≤ depth C := by
    intro C
    obtain ⟨t, ht, -⟩ := hd C
    omega
  obtain ⟨moved, hm, hs⟩ := allPrimal_cones a b lp hlp depth hd1 cones hC
  refine ⟨moved, hm, fun pieces hpl => ?_⟩
  obtain ⟨g, hg, hv⟩ := vertex_sum a b _ hvs S hS
  refine c85_cones N hN X .irrationalAllPrimal (by decide) irr (by intro h; cases h) maxDet h1 hmax fuel hfuel rounds lam pick hpick pieces
    (fun c hc p hpc => ?_) S hS.nodup g hg (fun z => ?_)
  · have hcm : (c.1, c.2.map (·.rays)) ∈ moved := hpl ▸ List.mem_map.2 ⟨c, hc, rfl⟩
    obtain ⟨C, hCm, hsim, hw⟩ := moved_spec lp depth cones moved hm _ hcm
    have ht := hC C hCm
    obtain ⟨u, hu⟩ := inner_point a b C ht
    have hB : p.rays ∈ C.simplices := by rw [← hsim]; exact List.mem_map.2 ⟨p, hpc, rfl⟩
    exact ⟨ht.triangulated.simplicial _ hB, (by intro h; cases h), (by intro h; cases h), fun D hD =>
      inPosition_general N hN hR maxDet h1 lp hlp (depth C) C.rays C.facets (hd C) ht.facets_ne ht.facet_ne C.vertex u hu c.1 hw p.rays (ht.rays _ hB) D hD⟩
  · rw [hpl, ← hv z, List.map_map]
    exact congrArg _ (hs z)

/-! ### The loop ends -/

theorem approxData_errors (lam : Vec (m + 1)) (C : Cone (m + 1)) : (∃ d, approxData lam C = .ok d ∧ d.cone = C) ∨ approxData lam C = .error .notGeneric := by
  by_cases hg : Generic lam C
  · left
    obtain ⟨w, P, hw, -⟩ := residueWeights_ok lam C.rays hg
    unfold approxData
    rw [hw]
    exact ⟨_, rfl, rfl⟩
  · right
    unfold Generic at hg
    push Not at hg
    obtain ⟨i, hi⟩ := hg
    unfold approxData
    rw [residueWeights_notGeneric lam C.rays i hi]

/-- The weight of a heap. -/
def heapWeight (l : List (Data (m + 1))) : ℕ := (l.map fun d => (m + 2) ^ d.cone.determinant.natAbs).sum

/-- An outcome the loop may end with, without having reached its end. -/
def Stop (e : Fail) : Prop := e = .notGeneric ∨ e = .abort

theorem evaluateCone_ends (X : Smith.Xgcd) {maxDet : ℤ} (hmax : maxDet ≤ Piped.intMax) {fuel : ℕ} (hfuel : maxDet < fuel) (lam : Vec (m + 1)) (s : State (m + 1))
    (hs : ∀ d ∈ s.heap, Wf d.cone) (C : Cone (m + 1)) (hC : Wf C) :
    (∃ e, evaluateCone X maxDet fuel lam s C = .error e ∧ Stop e) ∨
      ∃ s', evaluateCone X maxDet fuel lam s C = .ok s' ∧ (∀ d ∈ s'.heap, Wf d.cone) ∧
        heapWeight s'.heap ≤ heapWeight s.heap + (m + 2) ^ C.determinant.natAbs := by
  unfold evaluateCone
  by_cases hd : |C.determinant| ≤ maxDet
  · rw [if_pos hd]
    rcases residueSingle_value X lam fuel C hC (hd.trans hmax) (lt_of_le_of_lt hd hfuel) with ⟨-, hr⟩ | ⟨-, hr⟩
    · rw [hr]
      exact .inr ⟨_, rfl, hs, Nat.le_add_right _ _⟩
    · rw [hr]
      exact .inl ⟨_, rfl, .inl rfl⟩
  · rw [if_neg hd]
    rcases approxData_errors lam C with ⟨d, hd, hdc⟩ | hr
    · rw [hd]
      simp only
      split_ifs
      · refine .inr ⟨_, rfl, fun d' hd' => ?_, ?_⟩
        · rcases List.mem_cons.1 hd' with rfl | hd'
          · rw [hdc]; exact hC
          · exact hs d' hd'
        · unfold heapWeight
          simp only [List.map_cons, List.sum_cons, hdc]
          omega
      · exact .inl ⟨_, rfl, .inr rfl⟩
    · rw [hr]
      exact .inl ⟨_, rfl, .inl rfl⟩

theorem evaluateChildren_ends (X : Smith.Xgcd) {maxDet : ℤ} (hmax : maxDet ≤ Piped.intMax) {fuel : ℕ} (hfuel : maxDet < fuel) (lam : Vec (m + 1)) (D : ℕ)
    (ch : Fin (m + 1) → Option (Cone (m + 1))) (hch : ∀ i c, ch i = some c → Wf c ∧ c.determinant.natAbs ≤ D) (l : List (Fin (m + 1))) :
    ∀ s : State (m + 1), (∀ d ∈ s.heap, Wf d.cone) →
    (∃ e, evaluateChildren X maxDet fuel lam ch l s = .error e ∧ Stop e) ∨
      ∃ s', evaluateChildren X maxDet fuel lam ch l s = .ok s' ∧ (∀ d ∈ s'.heap, Wf d.cone) ∧
        heapWeight s'.heap ≤ heapWeight s.heap + l.length * (m + 2) ^ D := by
  induction l with
  | nil => intro s hs; exact .inr ⟨s, rfl, hs, by simp⟩
  | cons i l ih =>
    intro s hs
    unfold evaluateChildren
    cases hc : ch i with
    | none =>
      simp only
      rcases ih s hs with h | ⟨s', h, hw, hl⟩
      · exact .inl h
      · refine .inr ⟨s', h, hw, hl.trans ?_⟩
        rw [List.length_cons, Nat.succ_mul]
        omega
    | some c =>
      simp only
      obtain ⟨hwf, hle⟩ := hch i c hc
      rcases evaluateCone_ends X hmax hfuel lam s hs c hwf with ⟨e, he, hst⟩ | ⟨s1, he, hw1, hl1⟩
      · rw [he]; exact .inl ⟨e, rfl, hst⟩
      · rw [he]
        rcases ih s1 hw1 with h | ⟨s', h, hw, hl⟩
        · exact .inl h
        · refine .inr ⟨s', h, hw, hl.trans ?_⟩
          have : (m + 2) ^ c.determinant.natAbs ≤ (m + 2) ^ D := Nat.pow_le_pow_right (by omega) hle
          rw [List.length_cons, Nat.succ_mul]
          omega

theorem round_ends {N : Ntl (m + 1)} (hN : N.Ok) (X : Smith.Xgcd) {maxDet : ℤ} (hmax : maxDet ≤ Piped.intMax) {fuel : ℕ} (hfuel : maxDet < fuel) (lam : Vec (m + 1))
    {pick : Pick (m + 1)} (hpick : PickOk pick) (s : State (m + 1)) (hw : ∀ d ∈ s.heap, Wf d.cone) (d : Data (m + 1)) (l : List (Data (m + 1))) (hs : s.heap = d :: l) :
    (∃ e, round N X maxDet fuel lam pick s d l = .error e ∧ Stop e) ∨
      ∃ s', round N X maxDet fuel lam pick s d l = .ok s' ∧ (∀ d ∈ s'.heap, Wf d.cone) ∧ heapWeight s'.heap < heapWeight s.heap := by
  have hperm : s.heap.Perm ((pick d l).1 :: (pick d l).2) := hs ▸ hpick d l
  unfold round
  simp only
  set p := pick d l with hp
  have hmem : p.1 ∈ s.heap := hperm.mem_iff.2 List.mem_cons_self
  have hweight : heapWeight s.heap = (m + 2) ^ p.1.cone.determinant.natAbs + heapWeight p.2 := by
    unfold heapWeight
    rw [(hperm.map _).sum_eq, List.map_cons, List.sum_cons]
  cases hb : barvinokStep N p.1.cone with
  | none => exact .inl ⟨_, rfl, .inr rfl⟩
  | some r =>
    obtain ⟨Z, ch⟩ := r
    simp only
    obtain ⟨-, hchild, -⟩ := step_exact hN (hw _ hmem) hb
    have hdec := step_decreases hb
    have hpos : 0 < p.1.cone.determinant.natAbs := Int.natAbs_pos.2 (by rw [(hw _ hmem).det_eq]; exact (hw _ hmem).det_ne)
    obtain ⟨D, hD⟩ : ∃ D, p.1.cone.determinant.natAbs = D + 1 := ⟨_, (Nat.succ_pred_eq_of_pos hpos).symm⟩
    rcases evaluateChildren_ends X hmax hfuel lam D ch (fun i c hc => ⟨(hchild i c hc).2.2.1, by have := hdec i c hc; omega⟩) (List.finRange (m + 1))
      ⟨s.lower - p.1.lower, s.upper - p.1.upper, p.2⟩ (fun e he => hw e (hperm.mem_iff.2 (List.mem_cons_of_mem _ he))) with h | ⟨s', h, hw', hl⟩
    · exact .inl h
    · refine .inr ⟨s', h, hw', lt_of_le_of_lt hl ?_⟩
      rw [hweight, hD, List.length_finRange, pow_succ]
      have : 0 < (m + 2) ^ D := Nat.pow_pos (by omega)
      show heapWeight p.2 + (m + 1) * (m + 2) ^ D < (m + 2) ^ D * (m + 2) + heapWeight p.2
      nlinarith

theorem run_ends {N : Ntl (m + 1)} (hN : N.Ok) (X : Smith.Xgcd) {maxDet : ℤ} (hmax : maxDet ≤ Piped.intMax) {fuel : ℕ} (hfuel : maxDet < fuel) (lam : Vec (m + 1))
    {pick : Pick (m + 1)} (hpick : PickOk pick) : ∀ (t : ℕ) (s : State (m + 1)), (∀ d ∈ s.heap, Wf d.cone) → heapWeight s.heap < t →
    (∃ e, (run N X maxDet fuel lam pick t s).1 = .error e ∧ Stop e) ∨ ∃ s', (run N X maxDet fuel lam pick t s).1 = .ok s' := by
  intro t
  induction t with
  | zero => intro s _ h; omega
  | succ t ih =>
    intro s hw ht
    unfold run
    cases hs : s.heap with
    | nil => exact .inr ⟨s, rfl⟩
    | cons d l =>
      simp only
      rcases round_ends hN X hmax hfuel lam hpick s hw d l hs with ⟨e, he, hst⟩ | ⟨s', he, hw', hl⟩
      · rw [he]; exact .inl ⟨e, rfl, hst⟩
      · rw [he]; exact ih s' hw' (by omega)

theorem consumePieces_ends {N : Ntl (m + 1)} (X : Smith.Xgcd) (v : Variant) (hv : v ≠ .dual) (irr : Cone (m + 1) → Fin (m + 1) → ℚ)
    (hirr : v = .irrationalPrimal → IrrOk irr) {maxDet : ℤ} (hmax : maxDet ≤ Piped.intMax) {fuel : ℕ} (hfuel : maxDet < fuel) (lam : Vec (m + 1))
    (vertex : Fin (m + 1) → ℚ) (l : List (Piece (m + 1))) (hl : ∀ p ∈ l, PieceOk N maxDet v irr vertex p) :
    ∀ s : State (m + 1), (∀ d ∈ s.heap, Wf d.cone) → (∃ e, consumePieces X v irr maxDet fuel lam vertex l s = .error e ∧ Stop e) ∨
      ∃ s', consumePieces X v irr maxDet fuel lam vertex l s = .ok s' ∧ ∀ d ∈ s'.heap, Wf d.cone := by
  induction l with
  | nil => intro s hs; exact .inr ⟨s, rfl, hs⟩
  | cons p l ih =>
    intro s hs
    obtain ⟨C, -, hwf, -, -, hcons⟩ := startCone_spec v hv irr hirr vertex p (hl p List.mem_cons_self)
    unfold consumePieces
    rw [hcons]
    rcases evaluateCone_ends X hmax hfuel lam s hs C hwf with ⟨e, he, hst⟩ | ⟨s1, he, hw1, -⟩
    · rw [he]; exact .inl ⟨e, rfl, hst⟩
    · rw [he]; exact ih (fun p hp => hl p (List.mem_cons_of_mem _ hp)) s1 hw1

theorem consumeCones_ends {N : Ntl (m + 1)} (X : Smith.Xgcd) (v : Variant) (hv : v ≠ .dual) (irr : Cone (m + 1) → Fin (m + 1) → ℚ)
    (hirr : v = .irrationalPrimal → IrrOk irr) {maxDet : ℤ} (hmax : maxDet ≤ Piped.intMax) {fuel : ℕ} (hfuel : maxDet < fuel) (lam : Vec (m + 1))
    (l : List ((Fin (m + 1) → ℚ) × List (Piece (m + 1)))) (hl : ∀ c ∈ l, ∀ p ∈ c.2, PieceOk N maxDet v irr c.1 p) :
    ∀ s : State (m + 1), (∀ d ∈ s.heap, Wf d.cone) → (∃ e, consumeCones X v irr maxDet fuel lam l s = .error e ∧ Stop e) ∨
      ∃ s', consumeCones X v irr maxDet fuel lam l s = .ok s' ∧ ∀ d ∈ s'.heap, Wf d.cone := by
  induction l with
  | nil => intro s hs; exact .inr ⟨s, rfl, hs⟩
  | cons c l ih =>
    intro s hs
    unfold consumeCones
    rcases consumePieces_ends X v hv irr hirr hmax hfuel lam c.1 c.2 (hl c List.mem_cons_self) s hs with ⟨e, he, hst⟩ | ⟨s1, he, hw1⟩
    · rw [he]; exact .inl ⟨e, rfl, hst⟩
    · rw [he]; exact ih (fun c hc => hl c (List.mem_cons_of_mem _ hc)) s1 hw1

/-- **C85, the loop ends.** For every order in which cones leave the heap there is a number of rounds after which the loop has ended: regularly, with the exception for
a vector orthogonal to a ray, or with an assertion (no short vector was found, or more than 100000 cones on the heap). -/
theorem c85_ends (N : Ntl (m + 1)) (hN : N.Ok) (X : Smith.Xgcd) (v : Variant) (hv : v ≠ .dual) (irr : Cone (m + 1) → Fin (m + 1) → ℚ)
    (hirr : v = .irrationalPrimal → IrrOk irr) (maxDet : ℤ) (hmax : maxDet ≤ Piped.intMax) (fuel : ℕ) (hfuel : maxDet < fuel) (lam : Vec (m + 1))
    (pick : Pick (m + 1)) (hpick : PickOk pick) (cones : List ((Fin (m + 1) → ℚ) × List (Piece (m + 1))))
    (hok : ∀ c ∈ cones, ∀ p ∈ c.2, PieceOk N maxDet v irr c.1 p) :
    ∃ R, ∀ rounds, R ≤ rounds → (∃ s, (approximate N X v irr maxDet fuel rounds lam pick cones).1 = .ok s) ∨
      (approximate N X v irr maxDet fuel rounds lam pick cones).1 = .error .notGeneric ∨
      (approximate N X v irr maxDet fuel rounds lam pick cones).1 = .error .abort := by
  rcases consumeCones_ends X v hv irr hirr hmax hfuel lam cones hok ⟨0, 0, []⟩ (fun d hd => by cases hd) with ⟨e, he, hst⟩ | ⟨s, he, hw⟩
  · refine ⟨0, fun rounds _ => .inr ?_⟩
    unfold approximate
    rw [he]
    rcases hst with rfl | rfl
    · exact .inl rfl
    · exact .inr rfl
  · refine ⟨heapWeight s.heap + 1, fun rounds hr => ?_⟩
    unfold approximate
    rw [he]
    rcases run_ends hN X hmax hfuel lam hpick rounds s hw (by omega) with ⟨e, he, hst⟩ | h
    · rw [he]
      rcases hst with rfl | rfl
      · exact .inr (.inl rfl)
      · exact .inr (.inr rfl)
    · exact .inl h

end Verif.Approx
