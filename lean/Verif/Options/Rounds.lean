import Verif.CddV.Primal
import Verif.Brion.Total

/-!
# Counting with other decompositions, with a new triangulation in every round

Both irrational variants with `triangulateAndCount` (C75), where the cones are triangulated again after every vector that is not generic.
-/

namespace Verif.Options

open Verif.Barvinok Verif.Barvinok.Spec Verif.Brion Verif.Ti2 Verif.Regular Verif.ExpSubst Verif.Irrational

variable {n m N : ℕ}

/-! ## Model -/

/-- `irrationalizeCones`, Irrational.cpp:343–350, called from count.cpp:458, before anything is triangulated: the vertices are moved, the rays stay; `depth` is `estimate_barvinok_depth`
(Irrational.cpp:217–236); `none` is a failed assertion. -/
def moveCones (lp : Solver n) (depth : (Fin n → ℚ) → List (Vec n) → List (Vec n) → ℕ) : List (GCone n) → Option (List ((Fin n → ℚ) × List (Vec n)))
  | [] => some []
  | D :: l =>
    match irrationalizeGeneral lp (depth D.vertex D.rays D.facets) D.rays D.facets D.vertex with
    | none => none
    | some w =>
      match moveCones lp depth l with
      | none => none
      | some out => some ((w, D.rays) :: out)

/-! ## Specification -/

/-- **Specification.** A cone with rays and facets at the vertex of a polyhedron: the facets are inequalities for the tangent cone, none of them `0 ≤ 0`, the rays generate it and
span the space. -/
structure AtVertex (a : Fin N → Vec n) (b : Fin N → ℚ) (D : GCone n) : Prop where
  facets_ne : D.facets ≠ []
  facet_ne : ∀ f ∈ D.facets, f ≠ 0
  facets : ∀ y, (∀ f ∈ D.facets, dot f y ≤ 0) ↔ y ∈ tangent a b D.vertex
  rays : generated D.rays = tangent a b D.vertex
  spans : Spans D.rays

/-- **Specification.** The triangulation uses only the rays of the cone. -/
def Uses (tri : List (Vec n) → ℕ → Except Fail (List (List (Vec n)) × ℕ)) : Prop :=
  ∀ l k parts k', Spans l → tri l k = .ok (parts, k') → ∀ p ∈ parts, ∀ r ∈ p, r ∈ l

/-! ## Rounds -/

/-- If the number is right for all triangulations that can occur, it is right. -/
theorem rounds (N' : Ntl (m + 1)) (X : Smith.Xgcd) (v : Variant) (irr : Cone (m + 1) → Fin (m + 1) → ℚ) (maxDet : ℤ) (fuel : ℕ)
    (cones : List ((Fin (m + 1) → ℚ) × List (Vec (m + 1)))) (K : ℤ)
    (tries : ℕ) (tris : ℕ → List (Vec (m + 1)) → ℕ → Except Fail (List (List (Vec (m + 1))) × ℕ))
    (hTs : ∀ t Ts lam r, List.Forall₂ (Parts (tris t)) cones Ts → decomposeAndCount N' X v irr maxDet fuel Ts 1 (fun _ => lam) = .ok r → r = K)
    (guesses : ℕ → Vec (m + 1)) (r : ℤ) (h : triangulateAndCount N' X v irr maxDet fuel cones tries tris guesses = .ok r) : r = K := by
  induction tries generalizing tris guesses with
  | zero => cases h
  | succ t ih =>
    unfold triangulateAndCount at h
    cases ho : triangulateAndCountOnce (tris 0) N' X v irr maxDet fuel cones (guesses 0) with
    | error e =>
      rw [ho] at h
      cases e with
      | notGeneric => exact ih _ (fun t => hTs (t + 1)) _ h
      | abort => cases h
      | undefined => cases h
      | fuel => cases h
    | ok q =>
      rw [ho] at h
      unfold triangulateAndCountOnce at ho
      cases hd : triangulateAndDecompose (tris 0) ⟨N', v.mode, maxDet, fun _ C => acceptExp X (guesses 0) fuel C⟩ v irr cones [] 0 0 with
      | error e => rw [hd] at ho; cases ho
      | ok o =>
        rw [hd] at ho
        match o, hd, ho with
        | .done true out md, hd, ho =>
          dsimp only at ho
          obtain ⟨Ts, hf, hdec⟩ := triangulateAndDecompose_done (tris 0) _ v irr cones [] 0 0 out md hd
          refine hTs 0 Ts (guesses 0) r hf ?_
          unfold decomposeAndCount countOnce
          rw [hdec]
          dsimp only
          rw [ho]
          exact h

/-- **C96, irrational primal decomposition**, with the rays of the normal cones. -/
theorem count_irrationalPrimal (N' : Ntl (m + 1)) (hN : N'.Ok) (X : Smith.Xgcd) (depth : Cone (m + 1) → ℕ)
    (maxDet : ℤ) (h0 : maxDet ≠ 0) (hmax : maxDet ≤ Piped.intMax) (fuel : ℕ) (hfuel : maxDet < fuel)
    (a : Fin N → Vec (m + 1)) (b : Fin N → ℚ) (S : List (Vec (m + 1))) (hS : LatticePoints a b S)
    (cones : List ((Fin (m + 1) → ℚ) × List (Vec (m + 1)))) (hvs : IsVertexList a b (cones.map (·.1))) (hr : NormalRays a b cones)
    (tries : ℕ) (tris : ℕ → List (Vec (m + 1)) → ℕ → Except Fail (List (List (Vec (m + 1))) × ℕ)) (ht : ∀ t, TriangulationOk (tris t))
    (guesses : ℕ → Vec (m + 1)) (r : ℤ) (h : triangulateAndCount N' X .irrationalPrimal (irrVertex depth) maxDet fuel cones tries tris guesses = .ok r) :
    r = S.length := by
  have hv : ∀ c ∈ cones, (fun k => (c.1 k : ℝ)) ∈ (Poly a fun i => (b i : ℝ)).extremePoints ℝ := fun c hc =>
    (hvs.mem _).1 ⟨c.1, List.mem_map_of_mem hc, rfl⟩
  refine rounds N' X .irrationalPrimal _ maxDet fuel cones _ tries tris (fun t Ts lam r hf hr' => ?_) guesses r h
  obtain ⟨he, hT⟩ := parts_triangulation (tris t) (ht t) a b hf hv hr
  exact c65_count_irrationalPrimal N' hN X depth maxDet h0 hmax fuel hfuel a b S hS Ts (by rw [he]; exact hvs) hT 1 _ r hr'

/-! ## The irrational all-primal variant -/

/-- A point strictly on the other side of all facets. -/
theorem AtVertex.inner {a : Fin N → Vec n} {b : Fin N → ℚ} {D : GCone n} (h : AtVertex a b D) : ∃ u : Fin n → ℚ, ∀ f ∈ D.facets, 0 < dotQ f u := by
  refine ⟨fun k => -((D.rays.map fun r => (r k : ℚ)).sum), fun f hf => ?_⟩
  have hle : ∀ r ∈ D.rays, (∑ k, f k * r k : ℤ) ≤ 0 := by
    intro r hr
    have hm : toR r ∈ tangent a b D.vertex := by
      rw [← h.rays, generated_iff]
      intro y hy
      exact hy r hr
    have := (h.facets _).2 hm f hf
    unfold dot toR at this
    exact_mod_cast this
  have hex : ∃ r ∈ D.rays, (∑ k, f k * r k : ℤ) < 0 := by
    by_contra hno
    push Not at hno
    refine h.facet_ne f hf ?_
    have := h.spans (toR f) fun r hr => by
      have e : (∑ k, f k * r k : ℤ) = 0 := le_antisymm (hle r hr) (hno r hr)
      have e' : ((∑ k, f k * r k : ℤ) : ℝ) = 0 := by rw [e]; simp
      unfold dot toR
      push_cast at e'
      rw [← e']
      exact Finset.sum_congr rfl fun k _ => mul_comm _ _
    funext k
    have := congrFun this k
    have h2 : ((f k : ℤ) : ℝ) = 0 := this
    exact_mod_cast h2
  have hsum : dotQ f (fun k => -((D.rays.map fun r => (r k : ℚ)).sum)) = -(((D.rays.map fun r => ∑ k, f k * r k).sum : ℤ) : ℚ) := by
    unfold dotQ
    generalize D.rays = L
    induction L with
    | nil => simp
    | cons r L ih =>
      simp only [List.map_cons, List.sum_cons, neg_add, mul_add, Finset.sum_add_distrib, Int.cast_add] at ih ⊢
      rw [ih]
      push_cast
      simp [Finset.sum_neg_distrib]
  rw [hsum]
  clear hsum
  have hneg : (D.rays.map fun r => ∑ k, f k * r k).sum < 0 := by
    obtain ⟨r, hr, hlt⟩ := hex
    generalize D.rays = L at *
    induction L with
    | nil => cases hr
    | cons q L ih =>
      rw [List.map_cons, List.sum_cons]
      have h1 := hle q List.mem_cons_self
      have hL : ∀ L' : List (Vec n), (∀ r ∈ L', (∑ k, f k * r k : ℤ) ≤ 0) → (L'.map fun r => ∑ k, f k * r k).sum ≤ 0 := by
        intro L' hL'
        induction L' with
        | nil => simp
        | cons r L' ih' =>
          rw [List.map_cons, List.sum_cons]
          have h1 := hL' r List.mem_cons_self
          have h2 := ih' fun r hr => hL' r (List.mem_cons_of_mem _ hr)
          linarith
      rcases List.mem_cons.1 hr with rfl | hr
      · have := hL L fun r hr => hle r (List.mem_cons_of_mem _ hr)
        linarith
      · have := ih (fun r hr => hle r (List.mem_cons_of_mem _ hr)) hr
        linarith
  have : (((D.rays.map fun r => ∑ k, f k * r k).sum : ℤ) : ℚ) < 0 := by exact_mod_cast hneg
  linarith

/-- The move succeeds. -/
theorem moveCones_some (a : Fin N → Vec n) (b : Fin N → ℚ) (lp : Solver n) (hlp : SolverOk lp) (depth : (Fin n → ℚ) → List (Vec n) → List (Vec n) → ℕ) (out : List (GCone n))
    (h : ∀ D ∈ out, AtVertex a b D) : ∃ moved, moveCones lp depth out = some moved := by
  induction out with
  | nil => exact ⟨[], rfl⟩
  | cons D l ih =>
    obtain ⟨moved, hm⟩ := ih fun D' hD' => h D' (List.mem_cons_of_mem _ hD')
    have hD := h D List.mem_cons_self
    obtain ⟨u, hu⟩ := hD.inner
    obtain ⟨w, hw, -⟩ := c63_general lp hlp (depth D.vertex D.rays D.facets) D.rays D.facets hD.facets_ne hD.facet_ne D.vertex u hu
    exact ⟨(w, D.rays) :: moved, by unfold moveCones; rw [hw, hm]⟩

/-- A triangulation of the moved cones is what one gets by triangulating first. -/
theorem moveCones_parts (a : Fin N → Vec n) (b : Fin N → ℚ) (lp : Solver n) (depth : (Fin n → ℚ) → List (Vec n) → List (Vec n) → ℕ)
    (tri : List (Vec n) → ℕ → Except Fail (List (List (Vec n)) × ℕ)) (ht : TriangulationOk tri) (hu : Uses tri) :
    ∀ (out : List (GCone n)) (moved : List ((Fin n → ℚ) × List (Vec n))) (Ts : List ((Fin n → ℚ) × List (Mat n))), (∀ D ∈ out, AtVertex a b D) →
      moveCones lp depth out = some moved → List.Forall₂ (Parts tri) moved Ts →
      ∃ Cs : List (VertexCone n), Cs.map (·.vertex) = out.map (·.vertex) ∧ (∀ C ∈ Cs, TangentCone a b C) ∧
        irrationalizeCones lp (fun C => depth C.vertex C.rays C.facets) Cs = some Ts := by
  intro out
  induction out with
  | nil =>
    intro moved Ts _ hm hf
    obtain rfl := Option.some.inj hm
    cases hf
    exact ⟨[], rfl, by simp, rfl⟩
  | cons D l ih =>
    intro moved Ts h hm hf
    unfold moveCones at hm
    cases hw : irrationalizeGeneral lp (depth D.vertex D.rays D.facets) D.rays D.facets D.vertex with
    | none => rw [hw] at hm; cases hm
    | some w =>
      rw [hw] at hm
      cases hl : moveCones lp depth l with
      | none => rw [hl] at hm; cases hm
      | some moved' =>
        rw [hl] at hm
        obtain rfl := Option.some.inj hm
        cases hf with
        | cons h1 hf' =>
          rename_i T Ts'
          obtain ⟨Cs, e1, e2, e3⟩ := ih moved' Ts' (fun D' hD' => h D' (List.mem_cons_of_mem _ hD')) hl hf'
          obtain ⟨hv, k, parts, k', hk, hlen, hs⟩ := h1
          have hD := h D List.mem_cons_self
          refine ⟨⟨D.vertex, D.rays, D.facets, parts.reverse.map listMat⟩ :: Cs, by simp [e1], fun C hC => ?_, ?_⟩
          · rcases List.mem_cons.1 hC with rfl | hC
            · refine ⟨hD.facets_ne, hD.facet_ne, hD.facets, ?_, fun B hB i => ?_⟩
              · have h2 := ((ht _ _ _ _ hD.spans hk).reverse).triangulates fun p hp => hlen p (List.mem_reverse.1 hp)
                show Triangulation _ (tangent a b D.vertex)
                rw [← hD.rays]
                exact h2.triangulation
              · obtain ⟨p, hp, rfl⟩ := List.mem_map.1 hB
                have hp' := List.mem_reverse.1 hp
                have hlt : i.val < p.length := by rw [hlen p hp']; exact i.2
                have e : listMat p i = p[i.val] := by
                  unfold listMat
                  exact List.getD_eq_getElem _ _ hlt
                show listMat p i ∈ D.rays
                rw [e]
                exact hu _ _ _ _ hD.spans hk p hp' _ (List.getElem_mem hlt)
            · exact e2 C hC
          · unfold irrationalizeCones
            dsimp only
            rw [hw, e3]
            dsimp only
            rw [← hs]
            have : (w, T.2) = T := by
              have : w = T.1 := hv.symm
              rw [this]
            rw [this]

/-- **C96, irrational all-primal decomposition.** The move succeeds, and with triangulations that use only the rays of the cones, a number returned is the number of lattice points. -/
theorem count_irrationalAllPrimal (N' : Ntl (m + 1)) (hN : N'.Ok) (X : Smith.Xgcd) (irr : Cone (m + 1) → Fin (m + 1) → ℚ)
    (lp : Solver (m + 1)) (hlp : SolverOk lp) (depth : (Fin (m + 1) → ℚ) → List (Vec (m + 1)) → List (Vec (m + 1)) → ℕ) (hd : ∀ v R F, 1 ≤ depth v R F)
    (maxDet : ℤ) (h0 : maxDet ≠ 0) (hmax : maxDet ≤ Piped.intMax) (fuel : ℕ) (hfuel : maxDet < fuel)
    (a : Fin N → Vec (m + 1)) (b : Fin N → ℚ) (S : List (Vec (m + 1))) (hS : LatticePoints a b S)
    (out : List (GCone (m + 1))) (hvs : IsVertexList a b (out.map (·.vertex))) (hC : ∀ D ∈ out, AtVertex a b D) :
    ∃ moved, moveCones lp depth out = some moved ∧
      ∀ (tries : ℕ) (tris : ℕ → List (Vec (m + 1)) → ℕ → Except Fail (List (List (Vec (m + 1))) × ℕ)), (∀ t, TriangulationOk (tris t)) → (∀ t, Uses (tris t)) →
        ∀ (guesses : ℕ → Vec (m + 1)) (r : ℤ), triangulateAndCount N' X .irrationalAllPrimal irr maxDet fuel moved tries tris guesses = .ok r → r = S.length := by
  obtain ⟨moved, hm⟩ := moveCones_some a b lp hlp depth out hC
  refine ⟨moved, hm, fun tries tris ht hu guesses r h => ?_⟩
  refine rounds N' X .irrationalAllPrimal irr maxDet fuel moved _ tries tris (fun t Ts lam r hf hr => ?_) guesses r h
  obtain ⟨Cs, e1, e2, e3⟩ := moveCones_parts a b lp depth (tris t) (ht t) (hu t) out moved Ts hC hm hf
  obtain ⟨Ts', e4, e5⟩ := c65_count_irrationalAllPrimal N' hN X irr lp hlp (fun C => depth C.vertex C.rays C.facets) (fun C => hd _ _ _) maxDet h0 hmax fuel hfuel a b S hS Cs
    (by rw [e1]; exact hvs) e2
  rw [e3] at e4
  obtain rfl := Option.some.inj e4
  exact e5 1 _ r hr

/-! ## An answer is found -/

/-- **Specification.** What a decomposition does with triangulated cones: there are cones with generic vectors such that the count ends with `K` in the first round with a vector that is
generic for them. -/
def Ends (count : (tries : ℕ) → (guesses : ℕ → Vec (m + 1)) → Except Fail ℤ) (K : ℤ) : Prop :=
  ∃ D : List (Cone (m + 1)), (∃ lam, GenericFor lam D) ∧ ∀ (t : ℕ) (guesses : ℕ → Vec (m + 1)),
    (∀ s < t, ¬ GenericFor (guesses s) D) → GenericFor (guesses t) D → ∀ tries, t < tries → count tries guesses = .ok K

/-- One round in which all cones are triangulated. -/
theorem round_ends (N' : Ntl (m + 1)) (X : Smith.Xgcd) (v : Variant) (irr : Cone (m + 1) → Fin (m + 1) → ℚ) (maxDet : ℤ) (fuel : ℕ)
    (cones : List ((Fin (m + 1) → ℚ) × List (Vec (m + 1)))) (K : ℤ)
    (tri : List (Vec (m + 1)) → ℕ → Except Fail (List (List (Vec (m + 1))) × ℕ))
    (hTs : ∀ Ts, List.Forall₂ (Parts tri) cones Ts → Ends (fun tries guesses => decomposeAndCount N' X v irr maxDet fuel Ts tries guesses) K)
    (htot : ∀ c ∈ cones, ∀ k, ∃ parts k', tri c.2 k = .ok (parts, k') ∧ ∀ p ∈ parts, p.length = m + 1) :
    ∃ D : List (Cone (m + 1)), (∃ lam, GenericFor lam D) ∧ ∀ lam : Vec (m + 1),
      (∃ q : ℚ, triangulateAndCountOnce tri N' X v irr maxDet fuel cones lam = .ok q ∧ q.den = 1 ∧ q.num = K) ∨
        ¬ GenericFor lam D ∧ triangulateAndCountOnce tri N' X v irr maxDet fuel cones lam = .error .notGeneric := by
  have hround : ∀ (L : List ((Fin (m + 1) → ℚ) × List (Vec (m + 1)))) (k : ℕ), (∀ c ∈ L, c ∈ cones) → ∃ Ts, List.Forall₂ (Parts tri) L Ts ∧
      ∀ (P : Params (m + 1)) (out : List (Cone (m + 1))) (md : ℕ),
        triangulateAndDecompose tri P v irr L out md k = .ok (decompositionList P v irr Ts out md) := by
    intro L
    induction L with
    | nil => intro k _; exact ⟨[], .nil, fun P out md => rfl⟩
    | cons c L ih =>
      obtain ⟨vertex, rays⟩ := c
      intro k hL
      obtain ⟨parts, k1, hk, hlen⟩ := htot (vertex, rays) (hL _ List.mem_cons_self) k
      obtain ⟨Ts, hf, hT⟩ := ih k1 fun c hc => hL c (List.mem_cons_of_mem _ hc)
      refine ⟨(vertex, parts.reverse.map listMat) :: Ts, .cons ⟨rfl, k, parts, k1, hk, hlen, rfl⟩ hf, fun P out md => ?_⟩
      unfold triangulateAndDecompose decompositionList
      rw [hk]
      dsimp only
      rw [decomposeParts_eq P v irr vertex _ _ _ (by rw [collect_eq]; exact fun c hc => hlen c (List.mem_reverse.1 hc)), collect_eq]
      generalize barvinokDecompositionSingle P v irr vertex (parts.reverse.map listMat) out md = r
      match r with
      | .done true out1 md1 => exact hT P out1 md1
      | .done false out1 md1 => rfl
      | .notIrrational => rfl
      | .abort => rfl
  obtain ⟨Ts, hf, hT⟩ := hround cones 0 fun c hc => hc
  obtain ⟨D, ⟨good, hgood⟩, hD⟩ := hTs Ts hf
  refine ⟨D, ⟨good, hgood⟩, fun lam => ?_⟩
  have eonce : triangulateAndCountOnce tri N' X v irr maxDet fuel cones lam = countOnce N' X v irr maxDet fuel Ts lam := by
    unfold triangulateAndCountOnce countOnce
    rw [hT]
    generalize decompositionList ⟨N', v.mode, maxDet, fun _ C => acceptExp X lam fuel C⟩ v irr Ts [] 0 = o
    match o with
    | .done true out md => rfl
    | .done false out md => rfl
    | .notIrrational => rfl
    | .abort => rfl
  rw [eonce]
  by_cases hg : GenericFor lam D
  · left
    have h1 : decomposeAndCount N' X v irr maxDet fuel Ts 1 (fun _ => lam) = .ok K := hD 0 (fun _ => lam) (by omega) hg 1 (by omega)
    unfold decomposeAndCount at h1
    revert h1
    generalize countOnce N' X v irr maxDet fuel Ts lam = o
    intro h1
    match o, h1 with
    | .ok q, h1 =>
      dsimp only at h1
      by_cases hd : q.den = 1
      · rw [if_pos hd] at h1
        exact ⟨q, rfl, hd, Except.ok.inj h1⟩
      · rw [if_neg hd] at h1; cases h1
    | .error .notGeneric, h1 => cases h1
    | .error .fuel, h1 => cases h1
    | .error .abort, h1 => cases h1
  · have h1 : decomposeAndCount N' X v irr maxDet fuel Ts 2 (fun i => if i = 0 then lam else good) = .ok K :=
      hD 1 (fun i => if i = 0 then lam else good) (by intro s hs; obtain rfl : s = 0 := by omega
                                                      exact hg) hgood 2 (by omega)
    unfold decomposeAndCount at h1
    beta_reduce at h1
    rw [if_pos rfl] at h1
    revert h1
    generalize countOnce N' X v irr maxDet fuel Ts lam = o
    intro h1
    match o, h1 with
    | .ok q, h1 =>
      left
      dsimp only at h1
      by_cases hd : q.den = 1
      · rw [if_pos hd] at h1
        exact ⟨q, rfl, hd, Except.ok.inj h1⟩
      · rw [if_neg hd] at h1; cases h1
    | .error .notGeneric, h1 => exact .inr ⟨hg, rfl⟩
    | .error .fuel, h1 => cases h1
    | .error .abort, h1 => cases h1

/-- If all rounds up to round `t` triangulate all cones, the number is found in round `t` at the latest if its vector is generic. -/
theorem rounds_total (N' : Ntl (m + 1)) (X : Smith.Xgcd) (v : Variant) (irr : Cone (m + 1) → Fin (m + 1) → ℚ) (maxDet : ℤ) (fuel : ℕ)
    (cones : List ((Fin (m + 1) → ℚ) × List (Vec (m + 1)))) (K : ℤ)
    (tris : ℕ → List (Vec (m + 1)) → ℕ → Except Fail (List (List (Vec (m + 1))) × ℕ)) (t : ℕ)
    (hTs : ∀ s Ts, List.Forall₂ (Parts (tris s)) cones Ts → Ends (fun tries guesses => decomposeAndCount N' X v irr maxDet fuel Ts tries guesses) K)
    (htot : ∀ s ≤ t, ∀ c ∈ cones, ∀ k, ∃ parts k', tris s c.2 k = .ok (parts, k') ∧ ∀ p ∈ parts, p.length = m + 1) :
    ∃ D : List (Cone (m + 1)), (∃ lam, GenericFor lam D) ∧ ∀ (guesses : ℕ → Vec (m + 1)), GenericFor (guesses t) D →
      ∀ tries, t < tries → triangulateAndCount N' X v irr maxDet fuel cones tries tris guesses = .ok K := by
  induction t generalizing tris with
  | zero =>
    obtain ⟨D, hD, h⟩ := round_ends N' X v irr maxDet fuel cones K (tris 0) (hTs 0) (htot 0 le_rfl)
    refine ⟨D, hD, fun guesses hg tries htr => ?_⟩
    obtain ⟨t, rfl⟩ : ∃ t, tries = t + 1 := ⟨tries - 1, by omega⟩
    unfold triangulateAndCount
    rcases h (guesses 0) with ⟨q, h, hd, hn⟩ | ⟨h, -⟩
    · rw [h]
      dsimp only
      rw [if_pos hd, hn]
    · exact absurd hg h
  | succ T ih =>
    obtain ⟨_, _, h⟩ := round_ends N' X v irr maxDet fuel cones K (tris 0) (hTs 0) (htot 0 (Nat.zero_le _))
    obtain ⟨D, hD, ih⟩ := ih (fun i => tris (i + 1)) (fun s => hTs (s + 1)) fun s hs => htot (s + 1) (by omega)
    refine ⟨D, hD, fun guesses hg tries htr => ?_⟩
    obtain ⟨t, rfl⟩ : ∃ t, tries = t + 1 := ⟨tries - 1, by omega⟩
    unfold triangulateAndCount
    rcases h (guesses 0) with ⟨q, h, hd, hn⟩ | ⟨-, h⟩
    · rw [h]
      dsimp only
      rw [if_pos hd, hn]
    · rw [h]
      dsimp only
      exact ih (fun i => guesses (i + 1)) hg t (by omega)

/-- **C96, irrational primal decomposition, an answer is found.** -/
theorem total_irrationalPrimal (N' : Ntl (m + 1)) (hN : N'.Ok) (hR : N'.ShortestRow) (X : Smith.Xgcd) (depth : Cone (m + 1) → ℕ)
    (hd : ∀ C, Wf C → EstimateOk depth C) (maxDet : ℤ) (h1 : 1 ≤ maxDet) (hmax : maxDet ≤ Piped.intMax) (fuel : ℕ) (hfuel : maxDet < fuel)
    (a : Fin N → Vec (m + 1)) (b : Fin N → ℚ) (S : List (Vec (m + 1))) (hS : LatticePoints a b S)
    (cones : List ((Fin (m + 1) → ℚ) × List (Vec (m + 1)))) (hvs : IsVertexList a b (cones.map (·.1))) (hr : NormalRays a b cones)
    (tris : ℕ → List (Vec (m + 1)) → ℕ → Except Fail (List (List (Vec (m + 1))) × ℕ)) (ht : ∀ t, TriangulationOk (tris t)) (t : ℕ)
    (htot : ∀ s ≤ t, ∀ c ∈ cones, ∀ k, ∃ parts k', tris s c.2 k = .ok (parts, k') ∧ ∀ p ∈ parts, p.length = m + 1) :
    ∃ D : List (Cone (m + 1)), (∃ lam, GenericFor lam D) ∧ ∀ (guesses : ℕ → Vec (m + 1)), GenericFor (guesses t) D →
      ∀ tries, t < tries → triangulateAndCount N' X .irrationalPrimal (irrVertex depth) maxDet fuel cones tries tris guesses = .ok (S.length : ℤ) := by
  have hv : ∀ c ∈ cones, (fun k => (c.1 k : ℝ)) ∈ (Poly a fun i => (b i : ℝ)).extremePoints ℝ := fun c hc =>
    (hvs.mem _).1 ⟨c.1, List.mem_map_of_mem hc, rfl⟩
  refine rounds_total N' X .irrationalPrimal _ maxDet fuel cones _ tris t (fun s Ts hf => ?_) htot
  obtain ⟨he, hT⟩ := parts_triangulation (tris s) (ht s) a b hf hv hr
  exact c65_total_irrationalPrimal N' hN hR X depth hd maxDet h1 hmax fuel hfuel a b S hS Ts (by rw [he]; exact hvs) hT

/-- **C96, irrational all-primal decomposition, an answer is found.** -/
theorem total_irrationalAllPrimal (N' : Ntl (m + 1)) (hN : N'.Ok) (hR : N'.ShortestRow) (X : Smith.Xgcd) (irr : Cone (m + 1) → Fin (m + 1) → ℚ)
    (lp : Solver (m + 1)) (hlp : SolverOk lp) (depth : (Fin (m + 1) → ℚ) → List (Vec (m + 1)) → List (Vec (m + 1)) → ℕ) (hd : ∀ v R F, EstimateGeneralOk (depth v R F) R)
    (maxDet : ℤ) (h1 : 1 ≤ maxDet) (hmax : maxDet ≤ Piped.intMax) (fuel : ℕ) (hfuel : maxDet < fuel)
    (a : Fin N → Vec (m + 1)) (b : Fin N → ℚ) (S : List (Vec (m + 1))) (hS : LatticePoints a b S)
    (out : List (GCone (m + 1))) (hvs : IsVertexList a b (out.map (·.vertex))) (hC : ∀ D ∈ out, AtVertex a b D)
    (tris : ℕ → List (Vec (m + 1)) → ℕ → Except Fail (List (List (Vec (m + 1))) × ℕ)) (ht : ∀ t, TriangulationOk (tris t)) (hu : ∀ t, Uses (tris t)) (t : ℕ)
    (htot : ∀ s ≤ t, ∀ l, Spans l → ∀ k, ∃ parts k', tris s l k = .ok (parts, k') ∧ ∀ p ∈ parts, p.length = m + 1) :
    ∃ moved, moveCones lp depth out = some moved ∧ ∃ D : List (Cone (m + 1)), (∃ lam, GenericFor lam D) ∧ ∀ (guesses : ℕ → Vec (m + 1)), GenericFor (guesses t) D →
      ∀ tries, t < tries → triangulateAndCount N' X .irrationalAllPrimal irr maxDet fuel moved tries tris guesses = .ok (S.length : ℤ) := by
  obtain ⟨moved, hm⟩ := moveCones_some a b lp hlp depth out hC
  refine ⟨moved, hm, ?_⟩
  refine rounds_total N' X .irrationalAllPrimal irr maxDet fuel moved _ tris t (fun s Ts hf => ?_) fun s hs c hc k => htot s hs _ ?_ k
  · obtain ⟨Cs, e1, e2, e3⟩ := moveCones_parts a b lp depth (tris s) (ht s) (hu s) out moved Ts hC hm hf
    obtain ⟨Ts', e4, e5⟩ := c65_total_irrationalAllPrimal N' hN hR X irr lp hlp (fun C => depth C.vertex C.rays C.facets) (fun C => hd _ _ _) maxDet h1 hmax fuel hfuel a b S hS Cs
      (by rw [e1]; exact hvs) e2
    rw [e3] at e4
    obtain rfl := Option.some.inj e4
    exact e5
  · have key : ∀ (out : List (GCone (m + 1))) moved, (∀ D ∈ out, Spans D.rays) → moveCones lp depth out = some moved → ∀ c ∈ moved, Spans c.2 := by
      intro out
      induction out with
      | nil => intro moved _ hm c hc; obtain rfl := Option.some.inj hm; cases hc
      | cons D l ih =>
        intro moved hD hm c hc
        unfold moveCones at hm
        cases hw : irrationalizeGeneral lp (depth D.vertex D.rays D.facets) D.rays D.facets D.vertex with
        | none => rw [hw] at hm; cases hm
        | some w =>
          rw [hw] at hm
          cases hl : moveCones lp depth l with
          | none => rw [hl] at hm; cases hm
          | some moved' =>
            rw [hl] at hm
            obtain rfl := Option.some.inj hm
            rcases List.mem_cons.1 hc with rfl | hc
            · exact hD D List.mem_cons_self
            · exact ih moved' (fun D' hD' => hD D' (List.mem_cons_of_mem _ hD')) hl c hc
    exact key out moved (fun D hD => (hC D hD).spans) hm c hc

end Verif.Options
