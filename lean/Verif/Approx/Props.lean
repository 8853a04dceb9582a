import Verif.Approx.Bounds

/-!
# C85: the bounds shown by the approximation mode
-/

namespace Verif.Approx

open Verif.Barvinok Verif.Barvinok.Spec Verif.ExpSubst Verif.Irrational

variable {m : ℕ}

/-- A vector is not orthogonal to a ray of the cone. -/
def Generic (lam : Vec (m + 1)) (C : Cone (m + 1)) : Prop := ∀ i, ip lam (C.rays i) ≠ 0

/-- The contribution of a signed cone at a lattice point. -/
noncomputable def at_ (z : Vec (m + 1)) (C : Cone (m + 1)) : ℤ := C.coefficient * ind (cone C.rays) (rel z C.vertex)

theorem values_count (lam : Vec (m + 1)) (cones : List (Cone (m + 1))) (hwf : ∀ C ∈ cones, Wf C) (hgen : ∀ C ∈ cones, Generic lam C)
    (S : List (Vec (m + 1))) (hS : S.Nodup) (g : Vec (m + 1) → ℚ) (hg : g ∈ negligible (m + 1))
    (hind : ∀ z, (((cones.map (at_ z)).sum : ℤ) : ℚ) = (if z ∈ S then 1 else 0) + g z) : (cones.map (value lam)).sum = S.length := by
  classical
  have hcount := counting (ι := Fin cones.length) lam (fun i => (cones[i].coefficient : ℚ)) (fun i => den cones[i].rays) (fun i => pointsOf cones[i])
    (fun i => coneInd cones[i].rays cones[i].vertex) (fun i => (pointsOf_spec (hwf _ (List.getElem_mem _))).2.2.2) S hS g hg
    (fun z => by
      rw [← hind z]
      have : (cones.map (at_ z)).sum = ∑ i : Fin cones.length, at_ z cones[i] := by
        rw [← List.sum_ofFn]
        congr 1
        apply List.ext_getElem (by simp)
        intro i h1 h2
        simp
      rw [this]
      unfold at_
      push_cast
      rfl)
    (m + 1) (fun i => coneSeries lam cones[i].rays) (fun i => phi_den lam _ (hgen _ (List.getElem_mem _)))
  rw [hcount]
  have : (cones.map (value lam)).sum = ∑ i : Fin cones.length, value lam cones[i] := by
    rw [← List.sum_ofFn]
    congr 1
    apply List.ext_getElem (by simp)
    intro i h1 h2
    simp
  rw [this]
  rfl

/-- Exact evaluation. -/
theorem residueSingle_value (X : Smith.Xgcd) (lam : Vec (m + 1)) (fuel : ℕ) (C : Cone (m + 1)) (hC : Wf C) (hsmall : |C.determinant| ≤ Piped.intMax)
    (hfuel : |C.determinant| < fuel) :
    (Generic lam C ∧ residueSingle X lam C fuel = .ok (value lam C)) ∨ (¬ Generic lam C ∧ residueSingle X lam C fuel = .error .notGeneric) := by
  by_cases hg : Generic lam C
  · left
    obtain ⟨F, hF, hG⟩ := good_of_wf hC
    obtain ⟨pts, h1, h2⟩ := residueSingle_ok X lam fuel C ⟨⟨F, hF, hG⟩, hsmall, by rw [← hC.det_eq]; exact hfuel⟩ hg
    have h3 := (pointsOf_spec hC).2.2.2
    have e : gf pts = gf (pointsOf C) := emb_injective (h1.symm.trans h3)
    refine ⟨hg, ?_⟩
    rw [h2, e]
    rfl
  · right
    refine ⟨hg, ?_⟩
    unfold Generic at hg
    push Not at hg
    obtain ⟨i, hi⟩ := hg
    unfold residueSingle
    rw [residueWeights_notGeneric lam C.rays i hi]
    rfl

/-- The parameters of the decomposition, as used to describe the cones met. -/
def params (N : Ntl (m + 1)) (maxDet : ℤ) : Params (m + 1) := ⟨N, .primal, maxDet, fun _ _ => true⟩

/-- **Specification.** The vertex of a cone lies in general position for everything the decomposition of the cone meets: no cone met has a facet whose
hyperplane contains a lattice point. -/
def InPosition (N : Ntl (m + 1)) (maxDet : ℤ) (C : Cone (m + 1)) : Prop := ∀ t D, Reach (params N maxDet) C t D → isConeIrrational D

/-- What is known of a cone in the program. -/
structure Fine (N : Ntl (m + 1)) (maxDet : ℤ) (lam : Vec (m + 1)) (C : Cone (m + 1)) : Prop where
  wf : Wf C
  generic : Generic lam C
  position : InPosition N maxDet C

/-- The invariant: `done` are the cones evaluated exactly so far. -/
structure Inv (N : Ntl (m + 1)) (maxDet : ℤ) (lam : Vec (m + 1)) (target : Vec (m + 1) → ℤ) (done : List (Cone (m + 1))) (s : State (m + 1)) : Prop where
  done_fine : ∀ C ∈ done, Fine N maxDet lam C
  heap_fine : ∀ d ∈ s.heap, Fine N maxDet lam d.cone
  large : ∀ d ∈ s.heap, maxDet < |d.cone.determinant|
  bounds : ∀ d ∈ s.heap, d.lower ≤ value lam d.cone ∧ value lam d.cone ≤ d.upper
  lower : s.lower = (done.map (value lam)).sum + (s.heap.map (·.lower)).sum
  upper : s.upper = (done.map (value lam)).sum + (s.heap.map (·.upper)).sum
  sum : ∀ z, (done.map (at_ z)).sum + (s.heap.map fun d => at_ z d.cone).sum = target z

theorem evaluateCone_inv {N : Ntl (m + 1)} {X : Smith.Xgcd} {maxDet : ℤ} (hmax : maxDet ≤ Piped.intMax) {fuel : ℕ} (hfuel : maxDet < fuel) {lam : Vec (m + 1)}
    {target : Vec (m + 1) → ℤ} {done : List (Cone (m + 1))} {s s' : State (m + 1)} {C : Cone (m + 1)} (hI : Inv N maxDet lam target done s) (hC : Wf C)
    (hp : InPosition N maxDet C) (h : evaluateCone X maxDet fuel lam s C = .ok s') :
    ∃ done', Inv N maxDet lam (fun z => target z + at_ z C) done' s' := by
  unfold evaluateCone at h
  by_cases hd : |C.determinant| ≤ maxDet
  · rw [if_pos hd] at h
    rcases residueSingle_value X lam fuel C hC (hd.trans hmax) (lt_of_le_of_lt hd hfuel) with ⟨hg, hr⟩ | ⟨-, hr⟩
    · rw [hr] at h
      cases h
      refine ⟨C :: done, ?_, hI.heap_fine, hI.large, hI.bounds, ?_, ?_, fun z => ?_⟩
      · intro D hD
        rcases List.mem_cons.1 hD with rfl | hD
        · exact ⟨hC, hg, hp⟩
        · exact hI.done_fine D hD
      · rw [List.map_cons, List.sum_cons, hI.lower]; ring
      · rw [List.map_cons, List.sum_cons, hI.upper]; ring
      · rw [List.map_cons, List.sum_cons, ← hI.sum z]; ring
    · rw [hr] at h; cases h
  · rw [if_neg hd] at h
    cases ha : approxData lam C with
    | error e => rw [ha] at h; cases h
    | ok d =>
      rw [ha] at h
      simp only at h
      split_ifs at h
      cases h
      obtain ⟨e, hg, h1, h2⟩ := approxData_spec lam C hC d ha
      refine ⟨done, hI.done_fine, ?_, ?_, ?_, ?_, ?_, fun z => ?_⟩
      · intro d' hd'
        rcases List.mem_cons.1 hd' with rfl | hd'
        · rw [e]; exact ⟨hC, hg, hp⟩
        · exact hI.heap_fine d' hd'
      · intro d' hd'
        rcases List.mem_cons.1 hd' with rfl | hd'
        · rw [e]; omega
        · exact hI.large d' hd'
      · intro d' hd'
        rcases List.mem_cons.1 hd' with rfl | hd'
        · rw [e]; exact ⟨h1, h2⟩
        · exact hI.bounds d' hd'
      · rw [List.map_cons, List.sum_cons, hI.lower]; ring
      · rw [List.map_cons, List.sum_cons, hI.upper]; ring
      · rw [List.map_cons, List.sum_cons, ← hI.sum z, e]; ring

theorem evaluateChildren_inv {N : Ntl (m + 1)} {X : Smith.Xgcd} {maxDet : ℤ} (hmax : maxDet ≤ Piped.intMax) {fuel : ℕ} (hfuel : maxDet < fuel) {lam : Vec (m + 1)}
    (ch : Fin (m + 1) → Option (Cone (m + 1))) (hch : ∀ i c, ch i = some c → Wf c ∧ InPosition N maxDet c) (l : List (Fin (m + 1))) :
    ∀ {target : Vec (m + 1) → ℤ} {done : List (Cone (m + 1))} {s s' : State (m + 1)}, Inv N maxDet lam target done s →
    evaluateChildren X maxDet fuel lam ch l s = .ok s' →
    ∃ done', Inv N maxDet lam (fun z => target z + (l.map fun i => match ch i with | none => 0 | some c => at_ z c).sum) done' s' := by
  induction l with
  | nil =>
    intro target done s s' hI h
    cases h
    exact ⟨done, by simpa using hI⟩
  | cons i l ih =>
    intro target done s s' hI h
    unfold evaluateChildren at h
    cases hc : ch i with
    | none =>
      rw [hc] at h
      obtain ⟨done', h'⟩ := ih hI h
      refine ⟨done', ?_⟩
      simpa [hc] using h'
    | some c =>
      rw [hc] at h
      simp only at h
      cases he : evaluateCone X maxDet fuel lam s c with
      | error e => rw [he] at h; cases h
      | ok s1 =>
        rw [he] at h
        obtain ⟨d1, h1⟩ := evaluateCone_inv hmax hfuel hI (hch i c hc).1 (hch i c hc).2 he
        obtain ⟨done', h'⟩ := ih h1 h
        refine ⟨done', ?_⟩
        simpa [hc, add_assoc] using h'

/-- **Specification.** What leaves the heap and what remains together are what was in it. -/
def PickOk (pick : Pick (m + 1)) : Prop := ∀ d l, (d :: l).Perm ((pick d l).1 :: (pick d l).2)

theorem off_plane {C : Cone (m + 1)} (hC : Wf C) (hi : isConeIrrational C) (z : Vec (m + 1)) : ¬ OnFacetPlane C.rays (rel z C.vertex) := by
  obtain ⟨F, hF, hdual, -⟩ := hC.facets
  exact rel_off_planes C hC.det_ne F hF hC.div_pos hdual hi z

theorem round_inv {N : Ntl (m + 1)} (hN : N.Ok) {X : Smith.Xgcd} {maxDet : ℤ} (h1 : 1 ≤ maxDet) (hmax : maxDet ≤ Piped.intMax) {fuel : ℕ} (hfuel : maxDet < fuel)
    {lam : Vec (m + 1)} {pick : Pick (m + 1)} (hpick : PickOk pick) {target : Vec (m + 1) → ℤ} {done : List (Cone (m + 1))} {s s' : State (m + 1)}
    (hI : Inv N maxDet lam target done s) {d : Data (m + 1)} {l : List (Data (m + 1))} (hs : s.heap = d :: l)
    (h : round N X maxDet fuel lam pick s d l = .ok s') : ∃ done', Inv N maxDet lam target done' s' := by
  unfold round at h
  simp only at h
  have hperm : s.heap.Perm ((pick d l).1 :: (pick d l).2) := hs ▸ hpick d l
  set p := pick d l with hp
  have hmem : p.1 ∈ s.heap := hperm.mem_iff.2 List.mem_cons_self
  have hsub : ∀ e ∈ p.2, e ∈ s.heap := fun e he => hperm.mem_iff.2 (List.mem_cons_of_mem _ he)
  have hf := hI.heap_fine _ hmem
  have hI1 : Inv N maxDet lam (fun z => target z - at_ z p.1.cone) done ⟨s.lower - p.1.lower, s.upper - p.1.upper, p.2⟩ := by
    refine ⟨hI.done_fine, fun e he => hI.heap_fine e (hsub e he), fun e he => hI.large e (hsub e he), fun e he => hI.bounds e (hsub e he), ?_, ?_, fun z => ?_⟩
    · show s.lower - p.1.lower = _
      rw [hI.lower, (hperm.map (·.lower)).sum_eq, List.map_cons, List.sum_cons]; ring
    · show s.upper - p.1.upper = _
      rw [hI.upper, (hperm.map (·.upper)).sum_eq, List.map_cons, List.sum_cons]; ring
    · rw [← hI.sum z, (hperm.map fun d => at_ z d.cone).sum_eq, List.map_cons, List.sum_cons]; ring
  cases hb : barvinokStep N p.1.cone with
  | none => rw [hb] at h; cases h
  | some r =>
    obtain ⟨Z, ch⟩ := r
    rw [hb] at h
    simp only at h
    have hleaf : ¬ Leaf (params N maxDet) p.1.cone := by
      rintro (h0 | h0)
      · have : maxDet = 0 := h0
        omega
      · have : |p.1.cone.determinant| ≤ maxDet := h0
        have := hI.large _ hmem
        omega
    obtain ⟨-, hchild, hsum⟩ := step_exact hN hf.wf hb
    have hpos : ∀ i c, ch i = some c → Wf c ∧ InPosition N maxDet c := fun i c hc =>
      ⟨(hchild i c hc).2.2.1, fun t D hr => hf.position (t + 1) D (Reach.step (P := params N maxDet) hleaf hb hc hr)⟩
    obtain ⟨done', h'⟩ := evaluateChildren_inv hmax hfuel ch hpos _ hI1 h
    refine ⟨done', ?_⟩
    have e : (fun z => target z - at_ z p.1.cone + ((List.finRange (m + 1)).map fun i => match ch i with | none => 0 | some c => at_ z c).sum) = target := by
      funext z
      have hz := hsum (rel z p.1.cone.vertex) (off_plane hf.wf (hf.position 0 _ (Reach.refl _)) z) (fun i c hc => by
        rw [← (hchild i c hc).2.1]
        exact off_plane (hpos i c hc).1 ((hpos i c hc).2 0 c (Reach.refl c)) z)
      have e1 : at_ z p.1.cone = ((List.finRange (m + 1)).map fun i => match ch i with | none => 0 | some c => at_ z c).sum := by
        unfold at_ at *
        rw [hz, ← List.ofFn_eq_map, List.sum_ofFn]
        refine Finset.sum_congr rfl fun i _ => ?_
        cases hc : ch i with
        | none => rfl
        | some c => simp only [(hchild i c hc).2.1]
      rw [← e1]; ring
    rw [e] at h'
    exact h'

/-- The invariant gives the bounds. -/
theorem Inv.count {N : Ntl (m + 1)} {maxDet : ℤ} {lam : Vec (m + 1)} {target : Vec (m + 1) → ℤ} {done : List (Cone (m + 1))} {s : State (m + 1)}
    (hI : Inv N maxDet lam target done s) (S : List (Vec (m + 1))) (hS : S.Nodup) (g : Vec (m + 1) → ℚ) (hg : g ∈ negligible (m + 1))
    (hind : ∀ z, ((target z : ℤ) : ℚ) = (if z ∈ S then 1 else 0) + g z) :
    s.lower ≤ S.length ∧ (S.length : ℚ) ≤ s.upper ∧ (s.heap = [] → s.lower = S.length ∧ s.upper = S.length) := by
  have hall : ∀ C ∈ done ++ s.heap.map (·.cone), Fine N maxDet lam C := by
    intro C hC
    rcases List.mem_append.1 hC with h | h
    · exact hI.done_fine C h
    · obtain ⟨d, hd, rfl⟩ := List.mem_map.1 h
      exact hI.heap_fine d hd
  have hv := values_count lam (done ++ s.heap.map (·.cone)) (fun C hC => (hall C hC).wf) (fun C hC => (hall C hC).generic) S hS g hg (fun z => by
    rw [← hind z, ← hI.sum z, List.map_append, List.sum_append, List.map_map]
    rfl)
  rw [List.map_append, List.sum_append, List.map_map] at hv
  have hl : (s.heap.map (·.lower)).sum ≤ (s.heap.map (value lam ∘ fun d => d.cone)).sum := List.sum_le_sum fun d hd => (hI.bounds d hd).1
  have hu : (s.heap.map (value lam ∘ fun d => d.cone)).sum ≤ (s.heap.map (·.upper)).sum := List.sum_le_sum fun d hd => (hI.bounds d hd).2
  rw [hI.lower, hI.upper, ← hv]
  refine ⟨by linarith, by linarith, fun he => ?_⟩
  rw [he]
  simp

theorem run_inv {N : Ntl (m + 1)} (hN : N.Ok) {X : Smith.Xgcd} {maxDet : ℤ} (h1 : 1 ≤ maxDet) (hmax : maxDet ≤ Piped.intMax) {fuel : ℕ} (hfuel : maxDet < fuel)
    {lam : Vec (m + 1)} {pick : Pick (m + 1)} (hpick : PickOk pick) {target : Vec (m + 1) → ℤ} (S : List (Vec (m + 1))) (hS : S.Nodup) (g : Vec (m + 1) → ℚ)
    (hg : g ∈ negligible (m + 1)) (hind : ∀ z, ((target z : ℤ) : ℚ) = (if z ∈ S then 1 else 0) + g z) :
    ∀ (t : ℕ) {done : List (Cone (m + 1))} {s : State (m + 1)}, Inv N maxDet lam target done s →
    (∀ p ∈ (run N X maxDet fuel lam pick t s).2, p.1 ≤ S.length ∧ (S.length : ℚ) ≤ p.2) ∧
      ∀ s', (run N X maxDet fuel lam pick t s).1 = .ok s' → s'.lower = S.length ∧ s'.upper = S.length := by
  intro t
  induction t with
  | zero =>
    intro done s hI
    exact ⟨fun p hp => (by cases hp), fun s' h => (by cases h)⟩
  | succ t ih =>
    intro done s hI
    obtain ⟨c1, c2, c3⟩ := hI.count S hS g hg hind
    unfold run
    cases hs : s.heap with
    | nil =>
      refine ⟨fun p hp => (by cases hp), fun s' h => ?_⟩
      cases h
      exact c3 hs
    | cons d l =>
      simp only
      cases hr : round N X maxDet fuel lam pick s d l with
      | error e =>
        refine ⟨fun p hp => ?_, fun s' h => by cases h⟩
        simp only [List.mem_singleton] at hp
        subst hp
        exact ⟨c1, c2⟩
      | ok s1 =>
        obtain ⟨done', hI'⟩ := round_inv hN h1 hmax hfuel hpick hI hs hr
        obtain ⟨i1, i2⟩ := ih hI'
        refine ⟨fun p hp => ?_, i2⟩
        rcases List.mem_cons.1 hp with rfl | hp
        · exact ⟨c1, c2⟩
        · exact i1 p hp

/-! ### The cones at the beginning -/

/-- The cone the decomposition starts from, for one piece. -/
noncomputable def startCone (v : Variant) (irr : Cone (m + 1) → Fin (m + 1) → ℚ) (vertex : Fin (m + 1) → ℚ) (B : Mat (m + 1)) : Option (Cone (m + 1)) :=
  match v with
  | .irrationalPrimal => (dualizeCone ⟨1, vertex, B, 0, none, 0, 0⟩).map fun D => { D with vertex := irr D }
  | .irrationalAllPrimal => computeDetAndFacets ⟨1, vertex, B, 0, none, 0, 0⟩
  | .dual => none

/-- **Specification.** What is asked of a piece: in the variant that decomposes the polar of the piece it carries no facets and its rays are primitive; the vertex the
decomposition uses lies in general position. -/
structure PieceOk (N : Ntl (m + 1)) (maxDet : ℤ) (v : Variant) (irr : Cone (m + 1) → Fin (m + 1) → ℚ) (vertex : Fin (m + 1) → ℚ) (p : Piece (m + 1)) : Prop where
  simplicial : p.rays.det ≠ 0
  facets : v = .irrationalPrimal → p.facets = none
  primitive : v = .irrationalPrimal → ∀ i, Prim (p.rays i)
  position : ∀ C, startCone v irr vertex p.rays = some C → InPosition N maxDet C

theorem matrixGCD_of_prim (B : Mat (m + 1)) (h : ∀ i, Prim (B i)) : matrixGCD B = B := by
  ext i j
  have hg : rowGcd (B i) = 1 := by
    have h1 := h i (rowGcd (B i)) (fun k => rowGcd_dvd (B i) k)
    have h2 := rowGcd_nonneg (B i)
    rcases Int.isUnit_iff.1 h1 with h | h <;> omega
  unfold matrixGCD
  rw [hg]
  split_ifs <;> simp

theorem startCone_spec {N : Ntl (m + 1)} {maxDet : ℤ} (v : Variant) (hv : v ≠ .dual) (irr : Cone (m + 1) → Fin (m + 1) → ℚ)
    (hirr : v = .irrationalPrimal → IrrOk irr) (vertex : Fin (m + 1) → ℚ) (p : Piece (m + 1)) (hp : PieceOk N maxDet v irr vertex p) :
    ∃ C, startCone v irr vertex p.rays = some C ∧ Wf C ∧ InPosition N maxDet C ∧ (∀ z, at_ z C = inputInd v vertex p.rays z) ∧
      ∀ X fuel lam s, consumeCone X v irr maxDet fuel lam vertex s p = evaluateCone X maxDet fuel lam s C := by
  cases v with
  | dual => exact absurd rfl hv
  | irrationalPrimal =>
    have hB := hp.simplicial
    have hg := matrixGCD_of_prim p.rays (hp.primitive rfl)
    obtain ⟨-, D, hd, hwf, hc, hvx, hpol⟩ := start_wf p.rays hB vertex
    rw [hg] at hd
    have hd' : dualizeCone ⟨1, vertex, p.rays, 0, none, 0, 0⟩ = some D := by rw [← hd]; rfl
    have hs : startCone .irrationalPrimal irr vertex p.rays = some { D with vertex := irr D } := by
      unfold startCone; simp only [hd', Option.map_some]
    refine ⟨_, hs, wf_vertex hwf _, hp.position _ hs, fun z => ?_, fun X fuel lam s => ?_⟩
    · show D.coefficient * ind (cone D.rays) (rel z (irr D)) = ind (polar p.rays) (rel z vertex)
      rw [hc, one_mul]
      have i1 := hirr rfl D z hwf
      have i2 : rel z D.vertex ∈ cone D.rays ↔ rel z vertex ∈ polar p.rays := by rw [hvx]; exact hpol _
      unfold ind
      by_cases hh : rel z vertex ∈ polar p.rays
      · rw [if_pos hh, if_pos (i1.mpr (i2.mpr hh))]
      · rw [if_neg hh, if_neg (fun h => hh (i2.mp (i1.mp h)))]
    · unfold consumeCone
      simp only [hp.facets rfl, hd']
  | irrationalAllPrimal =>
    obtain ⟨D, F, hd, hF, hG⟩ := Piped.c13_applies ⟨1, vertex, p.rays, 0, none, 0, 0⟩ rfl hp.simplicial 0 1 one_ne_zero
    obtain ⟨hwf, hr, hc, hvx⟩ := wf_computeDetAndFacets hd
    refine ⟨D, hd, hwf, hp.position _ hd, fun z => ?_, fun X fuel lam s => ?_⟩
    · show D.coefficient * ind (cone D.rays) (rel z D.vertex) = ind (cone p.rays) (rel z vertex)
      rw [hc, hr, hvx, one_mul]
    · unfold consumeCone
      simp only [hd]

theorem consumePieces_inv {N : Ntl (m + 1)} {X : Smith.Xgcd} (v : Variant) (hv : v ≠ .dual) (irr : Cone (m + 1) → Fin (m + 1) → ℚ)
    (hirr : v = .irrationalPrimal → IrrOk irr) {maxDet : ℤ} (hmax : maxDet ≤ Piped.intMax) {fuel : ℕ} (hfuel : maxDet < fuel)
    {lam : Vec (m + 1)} (vertex : Fin (m + 1) → ℚ) (l : List (Piece (m + 1))) (hl : ∀ p ∈ l, PieceOk N maxDet v irr vertex p) :
    ∀ {target : Vec (m + 1) → ℤ} {done : List (Cone (m + 1))} {s s' : State (m + 1)}, Inv N maxDet lam target done s →
    consumePieces X v irr maxDet fuel lam vertex l s = .ok s' →
    ∃ done', Inv N maxDet lam (fun z => target z + (l.map fun p => inputInd v vertex p.rays z).sum) done' s' := by
  induction l with
  | nil =>
    intro target done s s' hI h
    cases h
    exact ⟨done, by simpa using hI⟩
  | cons p l ih =>
    intro target done s s' hI h
    obtain ⟨C, -, hwf, hpos, hat, hcons⟩ := startCone_spec v hv irr hirr vertex p (hl p List.mem_cons_self)
    unfold consumePieces at h
    rw [hcons] at h
    cases he : evaluateCone X maxDet fuel lam s C with
    | error e => rw [he] at h; cases h
    | ok s1 =>
      rw [he] at h
      obtain ⟨d1, h1⟩ := evaluateCone_inv hmax hfuel hI hwf hpos he
      obtain ⟨done', h'⟩ := ih (fun p hp => hl p (List.mem_cons_of_mem _ hp)) h1 h
      refine ⟨done', ?_⟩
      simpa [hat, add_assoc] using h'

theorem consumeCones_inv {N : Ntl (m + 1)} {X : Smith.Xgcd} (v : Variant) (hv : v ≠ .dual) (irr : Cone (m + 1) → Fin (m + 1) → ℚ)
    (hirr : v = .irrationalPrimal → IrrOk irr) {maxDet : ℤ} (hmax : maxDet ≤ Piped.intMax) {fuel : ℕ} (hfuel : maxDet < fuel)
    {lam : Vec (m + 1)} (l : List ((Fin (m + 1) → ℚ) × List (Piece (m + 1)))) (hl : ∀ c ∈ l, ∀ p ∈ c.2, PieceOk N maxDet v irr c.1 p) :
    ∀ {target : Vec (m + 1) → ℤ} {done : List (Cone (m + 1))} {s s' : State (m + 1)}, Inv N maxDet lam target done s →
    consumeCones X v irr maxDet fuel lam l s = .ok s' →
    ∃ done', Inv N maxDet lam (fun z => target z + (l.map fun c => (c.2.map fun p => inputInd v c.1 p.rays z).sum).sum) done' s' := by
  induction l with
  | nil =>
    intro target done s s' hI h
    cases h
    exact ⟨done, by simpa using hI⟩
  | cons c l ih =>
    intro target done s s' hI h
    unfold consumeCones at h
    cases he : consumePieces X v irr maxDet fuel lam c.1 c.2 s with
    | error e => rw [he] at h; cases h
    | ok s1 =>
      rw [he] at h
      obtain ⟨d1, h1⟩ := consumePieces_inv v hv irr hirr hmax hfuel c.1 c.2 (hl c List.mem_cons_self) hI he
      obtain ⟨done', h'⟩ := ih (fun p hp => hl p (List.mem_cons_of_mem _ hp)) h1 h
      refine ⟨done', ?_⟩
      simpa [add_assoc] using h'

/-- The pieces of all cones, without the facets they carry. -/
def plain (cones : List ((Fin (m + 1) → ℚ) × List (Piece (m + 1)))) : List ((Fin (m + 1) → ℚ) × List (Mat (m + 1))) :=
  cones.map fun c => (c.1, c.2.map (·.rays))

/-- **C85, any signed cones.** If the cones given add up, at the lattice points and up to functions with lines, to the finite set `S`, then for every vector, every
order in which cones leave the heap, every index bound at least 1 and every behaviour of the lattice reduction within its contract, all bounds shown enclose the
number of points of `S`, and if the loop ends the two final bounds are equal to it. -/
theorem c85_cones (N : Ntl (m + 1)) (hN : N.Ok) (X : Smith.Xgcd) (v : Variant) (hv : v ≠ .dual) (irr : Cone (m + 1) → Fin (m + 1) → ℚ)
    (hirr : v = .irrationalPrimal → IrrOk irr) (maxDet : ℤ) (h1 : 1 ≤ maxDet) (hmax : maxDet ≤ Piped.intMax) (fuel : ℕ) (hfuel : maxDet < fuel) (rounds : ℕ)
    (lam : Vec (m + 1)) (pick : Pick (m + 1)) (hpick : PickOk pick) (cones : List ((Fin (m + 1) → ℚ) × List (Piece (m + 1))))
    (hok : ∀ c ∈ cones, ∀ p ∈ c.2, PieceOk N maxDet v irr c.1 p) (S : List (Vec (m + 1))) (hS : S.Nodup) (g : Vec (m + 1) → ℚ) (hg : g ∈ negligible (m + 1))
    (hind : ∀ z, ((((plain cones).map fun c => (c.2.map fun B => inputInd v c.1 B z).sum).sum : ℤ) : ℚ) = (if z ∈ S then 1 else 0) + g z) :
    (∀ b ∈ (approximate N X v irr maxDet fuel rounds lam pick cones).2, b.1 ≤ S.length ∧ (S.length : ℚ) ≤ b.2) ∧
      ∀ s, (approximate N X v irr maxDet fuel rounds lam pick cones).1 = .ok s → s.lower = S.length ∧ s.upper = S.length := by
  unfold approximate
  cases hc : consumeCones X v irr maxDet fuel lam cones ⟨0, 0, []⟩ with
  | error e => exact ⟨fun b hb => (by cases hb), fun s h => (by cases h)⟩
  | ok s =>
    have hI0 : Inv N maxDet lam (fun _ => 0) [] ⟨0, 0, []⟩ := ⟨fun C hC => (by cases hC), fun d hd => (by cases hd), fun d hd => (by cases hd),
      fun d hd => (by cases hd), by simp, by simp, fun z => (by simp)⟩
    obtain ⟨done, hI⟩ := consumeCones_inv v hv irr hirr hmax hfuel cones hok hI0 hc
    refine run_inv hN h1 hmax hfuel hpick S hS g hg (fun z => ?_) rounds hI
    rw [← hind z]
    congr 1
    rw [zero_add]
    unfold plain
    rw [List.map_map]
    congr 1
    refine List.map_congr_left fun c _ => ?_
    simp only [Function.comp, List.map_map]
    rfl

end Verif.Approx
