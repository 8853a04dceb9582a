import Verif.Regular.Props

/-!
# Counting with triangulation, end to end
-/

namespace Verif.Regular

open Verif.Barvinok Verif.Barvinok.Spec Verif.Brion Verif.ExpSubst Verif.Irrational

variable {n m N : ℕ}

theorem collect_eq {α : Type} (L : List α) : collect L = L.reverse := by
  have : ∀ (L acc : List α), L.foldl (fun acc c => c :: acc) acc = L.reverse ++ acc := by
    intro L
    induction L with
    | nil => intro acc; rfl
    | cons x L ih => intro acc; rw [List.foldl_cons, ih, List.reverse_cons, List.append_assoc]; rfl
  unfold collect
  rw [this, List.append_nil]

theorem Subdivides.reverse {out : List (List (Vec n))} {K : Set (Fin n → ℝ)} (h : Subdivides out K) : Subdivides out.reverse K := by
  refine ⟨fun c hc => h.spans c (List.mem_reverse.1 hc), fun p => ?_, ?_⟩
  · rw [h.covers]
    simp
  · rw [List.pairwise_reverse]
    exact h.disjoint.imp fun hcc => by rwa [Set.inter_comm]

/-- The outcome of the loop over the parts. -/
theorem decomposeParts_done [NeZero n] (P : Params n) (v : Variant) (irr : Cone n → Fin n → ℚ) (vertex : Fin n → ℚ) :
    ∀ (cs : List (List (Vec n))) (out : List (Cone n)) (md : ℕ) (out' : List (Cone n)) (md' : ℕ),
      decomposeParts P v irr vertex cs out md = .done true out' md' →
      (∀ c ∈ cs, c.length = n) ∧ barvinokDecompositionSingle P v irr vertex (cs.map listMat) out md = .done true out' md' := by
  intro cs
  induction cs with
  | nil => intro out md out' md' h; exact ⟨by simp, h⟩
  | cons c cs ih =>
    intro out md out' md' h
    unfold decomposeParts at h
    by_cases hc : c.length = n
    · rw [if_pos hc] at h
      rw [List.map_cons]
      unfold barvinokDecompositionSingle
      show _ ∧ (match barvinokSingle P v irr (createConeDecMatrix c) vertex out md with
        | .done true out maxDepth => barvinokDecompositionSingle P v irr vertex (cs.map listMat) out maxDepth
        | r => r) = _
      revert h
      generalize barvinokSingle P v irr (createConeDecMatrix c) vertex out md = r
      intro h
      match r, h with
      | .done true out1 md1, h =>
        obtain ⟨h1, h2⟩ := ih _ _ _ _ h
        exact ⟨by simpa [hc] using h1, h2⟩
    · rw [if_neg hc] at h
      cases h

theorem decomposeParts_eq [NeZero n] (P : Params n) (v : Variant) (irr : Cone n → Fin n → ℚ) (vertex : Fin n → ℚ) :
    ∀ (cs : List (List (Vec n))) (out : List (Cone n)) (md : ℕ), (∀ c ∈ cs, c.length = n) →
      decomposeParts P v irr vertex cs out md = barvinokDecompositionSingle P v irr vertex (cs.map listMat) out md := by
  intro cs
  induction cs with
  | nil => intro out md _; rfl
  | cons c cs ih =>
    intro out md h
    unfold decomposeParts
    rw [if_pos (h c List.mem_cons_self), List.map_cons]
    unfold barvinokDecompositionSingle
    show (match barvinokSingle P v irr (createConeDecMatrix c) vertex out md with
        | .done true out maxDepth => decomposeParts P v irr vertex cs out maxDepth
        | r => r) = (match barvinokSingle P v irr (createConeDecMatrix c) vertex out md with
        | .done true out maxDepth => barvinokDecompositionSingle P v irr vertex (cs.map listMat) out maxDepth
        | r => r)
    generalize barvinokSingle P v irr (createConeDecMatrix c) vertex out md = r
    match r with
    | .done true out1 md1 => exact ih _ _ fun c hc => h c (List.mem_cons_of_mem _ hc)
    | .done false out1 md1 => rfl
    | .notIrrational => rfl
    | .abort => rfl

/-- What a round used: a triangulation of each cone. -/
def Parts (tri : List (Vec n) → ℕ → Except Fail (List (List (Vec n)) × ℕ)) (c : (Fin n → ℚ) × List (Vec n)) (t : (Fin n → ℚ) × List (Mat n)) : Prop :=
  t.1 = c.1 ∧ ∃ k parts k', tri c.2 k = .ok (parts, k') ∧ (∀ p ∈ parts, p.length = n) ∧ t.2 = parts.reverse.map listMat

theorem triangulateAndDecompose_done [NeZero n] (tri : List (Vec n) → ℕ → Except Fail (List (List (Vec n)) × ℕ)) (P : Params n) (v : Variant)
    (irr : Cone n → Fin n → ℚ) : ∀ (cones : List ((Fin n → ℚ) × List (Vec n))) (out : List (Cone n)) (md k : ℕ) (out' : List (Cone n)) (md' : ℕ),
      triangulateAndDecompose tri P v irr cones out md k = .ok (.done true out' md') →
      ∃ Ts, List.Forall₂ (Parts tri) cones Ts ∧ decompositionList P v irr Ts out md = .done true out' md' := by
  intro cones
  induction cones with
  | nil =>
    intro out md k out' md' h
    simp only [triangulateAndDecompose, Except.ok.injEq] at h
    exact ⟨[], .nil, h⟩
  | cons c cones ih =>
    obtain ⟨vertex, rays⟩ := c
    intro out md k out' md' h
    unfold triangulateAndDecompose at h
    cases ht : tri rays k with
    | error e => rw [ht] at h; cases h
    | ok p =>
      obtain ⟨parts, k1⟩ := p
      rw [ht] at h
      dsimp only at h
      cases hd : decomposeParts P v irr vertex (collect parts) out md with
      | notIrrational => rw [hd] at h; cases h
      | abort => rw [hd] at h; cases h
      | done ok out1 md1 =>
        rw [hd] at h
        cases ok with
        | false => cases h
        | true =>
          dsimp only at h
          obtain ⟨Ts, h1, h2⟩ := ih _ _ _ _ _ h
          obtain ⟨h3, h4⟩ := decomposeParts_done P v irr vertex _ _ _ _ _ hd
          rw [collect_eq] at h3 h4
          refine ⟨(vertex, parts.reverse.map listMat) :: Ts, .cons ⟨rfl, k, parts, k1, ht, fun p hp => h3 p (List.mem_reverse.2 hp), rfl⟩ h1, ?_⟩
          unfold decompositionList
          rw [h4]
          exact h2

/-! ### The normal cones -/

/-- **Specification.** The rays of the cone at each vertex generate the normal cone of the polytope there. -/
def NormalRays (a : Fin N → Vec n) (b : Fin N → ℚ) (cones : List ((Fin n → ℚ) × List (Vec n))) : Prop :=
  ∀ c ∈ cones, generated c.2 = normal a b c.1

theorem spans_of_vertex (a : Fin N → Vec n) (b : Fin N → ℚ) (v : Fin n → ℚ)
    (hv : (fun k => (v k : ℝ)) ∈ (Poly a fun i => (b i : ℝ)).extremePoints ℝ) (rays : List (Vec n)) (hr : generated rays = normal a b v) : Spans rays := by
  intro d hd
  refine active_of_extreme a (fun i => (b i : ℝ)) _ hv d fun i hi => ?_
  have hact : i ∈ active a b v := by
    have h1 : dot (a i) (fun k => (v k : ℝ)) = (b i : ℝ) := hi
    unfold dot at h1
    show ∑ k, (a i k : ℚ) * v k = b i
    have : ((∑ k, (a i k : ℚ) * v k : ℚ) : ℝ) = ((b i : ℚ) : ℝ) := by push_cast; exact h1
    exact_mod_cast this
  have hmem : (fun k => (a i k : ℝ)) ∈ generated rays := by
    rw [hr]
    refine ⟨fun j => if j = i then 1 else 0, fun j => ?_, fun j hj => ?_, fun k => ?_⟩
    · beta_reduce; split_ifs <;> norm_num
    · exact if_neg (by rintro rfl; exact hj hact)
    · simp
  rw [generated_iff] at hmem
  have h1 := hmem d fun r hr => (hd r hr).le
  have h2 := hmem (-d) fun r hr => by rw [dot_neg, hd r hr, neg_zero]
  have e : ∑ k, (a i k : ℝ) * (-d) k = -∑ k, (a i k : ℝ) * d k := by
    rw [← Finset.sum_neg_distrib]
    exact Finset.sum_congr rfl fun k _ => by rw [Pi.neg_apply]; ring
  rw [e] at h2
  show ∑ k, (a i k : ℝ) * d k = 0
  linarith

/-- The contract of the triangulation as it is used for counting: if the parts all have `n` rays, they triangulate the cone. -/
def TriangulationOk (tri : List (Vec n) → ℕ → Except Fail (List (List (Vec n)) × ℕ)) : Prop :=
  ∀ rays k parts k', Spans rays → tri rays k = .ok (parts, k') → Subdivides parts (generated rays)

/-- Both methods keep it. -/
theorem triangulateCone_ok (dd : DD) (hdd : DDOk dd) (alg : RayAlg) (ha : RayAlgOk alg) (lindep : List (Vec n) → List ℤ → Bool) (hl : LindepOk lindep)
    (P : TriParams n) (hM : 1 ≤ P.maxHeight) (hp : P.prescribed = none) (g : Rng) (hg : g.Ok) (fuel : ℕ) :
    TriangulationOk (triangulateCone dd alg lindep P g fuel) := by
  intro rays k parts k' hs h
  unfold triangulateCone at h
  by_cases h1 : P.assumeFulldim = true ∧ n = rays.length
  · rw [if_pos h1] at h
    cases h
    exact Subdivides.single rays hs
  · rw [if_neg h1] at h
    cases hm : P.method with
    | cddlib => rw [hm] at h; exact (triangulateCdd_subdivides dd hdd g hg _ _ hM fuel (.random P.maxHeight) rays k parts k' hs hM h).1
    | delone => rw [hm] at h; exact (triangulateCdd_subdivides dd hdd g hg _ _ hM fuel .delone rays k parts k' hs trivial h).1
    | fortytwo =>
      rw [hm] at h
      exact (triangulate4ti2_subdivides alg ha lindep hl g hg _ _ hM fuel P.fortytwoHeight rays k parts k' hs
        (TriParams.Ok.heights ⟨hM, fun t ht => by rw [hp] at ht; cases ht⟩) h).1

theorem parts_triangulation (tri : List (Vec n) → ℕ → Except Fail (List (List (Vec n)) × ℕ)) (ht : TriangulationOk tri) (a : Fin N → Vec n)
    (b : Fin N → ℚ) {cones : List ((Fin n → ℚ) × List (Vec n))} {Ts : List ((Fin n → ℚ) × List (Mat n))} (hf : List.Forall₂ (Parts tri) cones Ts)
    (hv : ∀ c ∈ cones, (fun k => (c.1 k : ℝ)) ∈ (Poly a fun i => (b i : ℝ)).extremePoints ℝ) (hr : NormalRays a b cones) :
    Ts.map (·.1) = cones.map (·.1) ∧ ∀ t ∈ Ts, Triangulation t.2 (normal a b t.1) := by
  induction hf with
  | nil => simp
  | @cons c t cones Ts h1 _ ih =>
    obtain ⟨i1, i2⟩ := ih (fun c hc => hv c (List.mem_cons_of_mem _ hc)) fun c hc => hr c (List.mem_cons_of_mem _ hc)
    obtain ⟨e, k, parts, k', hk, hlen, ep⟩ := h1
    refine ⟨by rw [List.map_cons, List.map_cons, i1, e], fun t' ht' => ?_⟩
    rcases List.mem_cons.1 ht' with rfl | ht'
    · have hs := spans_of_vertex a b c.1 (hv c List.mem_cons_self) c.2 (hr c List.mem_cons_self)
      have h2 := ((ht _ _ _ _ hs hk).reverse).triangulates fun p hp => hlen p (List.mem_reverse.1 hp)
      rw [ep, e, ← hr c List.mem_cons_self]
      exact h2.triangulation
    · exact i2 t' ht'

/-- **C75, counting.** The program triangulates the normal cones, decomposes the parts and adds up the residues, with new random numbers in every round.
Whatever the random numbers are, if it returns a number, then that is the number of lattice points of the polytope. -/
theorem c75_count (N' : Ntl (m + 1)) (hN : N'.Ok) (X : Smith.Xgcd) (irr : Cone (m + 1) → Fin (m + 1) → ℚ)
    (maxDet : ℤ) (h0 : maxDet ≠ 0) (hmax : maxDet ≤ Piped.intMax) (fuel : ℕ) (hfuel : maxDet < fuel)
    (a : Fin N → Vec (m + 1)) (b : Fin N → ℚ) (S : List (Vec (m + 1))) (hS : LatticePoints a b S)
    (cones : List ((Fin (m + 1) → ℚ) × List (Vec (m + 1)))) (hvs : IsVertexList a b (cones.map (·.1))) (hr : NormalRays a b cones)
    (tries : ℕ) (tris : ℕ → List (Vec (m + 1)) → ℕ → Except Fail (List (List (Vec (m + 1))) × ℕ)) (ht : ∀ t, TriangulationOk (tris t))
    (guesses : ℕ → Vec (m + 1)) (r : ℤ) (h : triangulateAndCount N' X .dual irr maxDet fuel cones tries tris guesses = .ok r) : r = S.length := by
  have hv : ∀ c ∈ cones, (fun k => (c.1 k : ℝ)) ∈ (Poly a fun i => (b i : ℝ)).extremePoints ℝ := fun c hc =>
    (hvs.mem _).1 ⟨c.1, List.mem_map_of_mem hc, rfl⟩
  induction tries generalizing tris guesses with
  | zero => cases h
  | succ t ih =>
    unfold triangulateAndCount at h
    cases ho : triangulateAndCountOnce (tris 0) N' X .dual irr maxDet fuel cones (guesses 0) with
    | error e =>
      rw [ho] at h
      cases e with
      | notGeneric => exact ih _ (fun t => ht (t + 1)) _ h
      | abort => cases h
      | undefined => cases h
      | fuel => cases h
    | ok q =>
      rw [ho] at h
      unfold triangulateAndCountOnce at ho
      cases hd : triangulateAndDecompose (tris 0) ⟨N', Variant.dual.mode, maxDet, fun _ C => acceptExp X (guesses 0) fuel C⟩ .dual irr cones [] 0 0 with
      | error e => rw [hd] at ho; cases ho
      | ok o =>
        rw [hd] at ho
        match o, hd, ho with
        | .done true out md, hd, ho =>
          dsimp only at ho
          obtain ⟨Ts, hf, hdec⟩ := triangulateAndDecompose_done (tris 0) _ .dual irr cones [] 0 0 out md hd
          obtain ⟨he, hT⟩ := parts_triangulation (tris 0) (ht 0) a b hf hv hr
          have hvs' : IsVertexList a b (Ts.map (·.1)) := by rw [he]; exact hvs
          have hc : decomposeAndCount N' X .dual irr maxDet fuel Ts 1 (fun _ => guesses 0) = .ok r := by
            unfold decomposeAndCount countOnce
            rw [hdec]
            dsimp only
            rw [ho]
            exact h
          exact c65_count_dual N' hN X irr maxDet h0 hmax fuel hfuel a b S hS Ts hvs' hT 1 _ r hc

/-- One round in which all cones are triangulated: the cones delivered by the decomposition have generic vectors; a generic vector gives the number of lattice
points; any other vector gives it as well or is rejected. -/
theorem round_total (N' : Ntl (m + 1)) (hN : N'.Ok) (hsv : ShortVectors N') (X : Smith.Xgcd) (irr : Cone (m + 1) → Fin (m + 1) → ℚ)
    (maxDet : ℤ) (h1 : 1 ≤ maxDet) (hmax : maxDet ≤ Piped.intMax) (fuel : ℕ) (hfuel : maxDet < fuel)
    (a : Fin N → Vec (m + 1)) (b : Fin N → ℚ) (S : List (Vec (m + 1))) (hS : LatticePoints a b S)
    (cones : List ((Fin (m + 1) → ℚ) × List (Vec (m + 1)))) (hvs : IsVertexList a b (cones.map (·.1))) (hr : NormalRays a b cones)
    (tri : List (Vec (m + 1)) → ℕ → Except Fail (List (List (Vec (m + 1))) × ℕ)) (ht : TriangulationOk tri)
    (htot : ∀ c ∈ cones, ∀ k, ∃ parts k', tri c.2 k = .ok (parts, k') ∧ ∀ p ∈ parts, p.length = m + 1) :
    ∃ D : List (Cone (m + 1)), (∃ lam, GenericFor lam D) ∧ ∀ lam : Vec (m + 1),
      (∃ q : ℚ, triangulateAndCountOnce tri N' X .dual irr maxDet fuel cones lam = .ok q ∧ q.den = 1 ∧ q.num = (S.length : ℤ)) ∨
        ¬ GenericFor lam D ∧ triangulateAndCountOnce tri N' X .dual irr maxDet fuel cones lam = .error .notGeneric := by
  have hv : ∀ c ∈ cones, (fun k => (c.1 k : ℝ)) ∈ (Poly a fun i => (b i : ℝ)).extremePoints ℝ := fun c hc =>
    (hvs.mem _).1 ⟨c.1, List.mem_map_of_mem hc, rfl⟩
  -- the triangulations of the first round
  have hround : ∀ (L : List ((Fin (m + 1) → ℚ) × List (Vec (m + 1)))) (k : ℕ), (∀ c ∈ L, c ∈ cones) → ∃ Ts, List.Forall₂ (Parts tri) L Ts ∧
      ∀ (P : Params (m + 1)) (out : List (Cone (m + 1))) (md : ℕ),
        triangulateAndDecompose tri P .dual irr L out md k = .ok (decompositionList P .dual irr Ts out md) := by
    intro L
    induction L with
    | nil => intro k _; exact ⟨[], .nil, fun P out md => rfl⟩
    | cons c L ih =>
      obtain ⟨vertex, rays⟩ := c
      intro k hL
      obtain ⟨parts, k1, hk, hlen⟩ := htot (vertex, rays) (hL _ List.mem_cons_self) k
      obtain ⟨Ts, hf, hT⟩ := ih k1 fun c hc => hL c (List.mem_cons_of_mem _ hc)
      refine ⟨(vertex, parts.reverse.map listMat) :: Ts, .cons ⟨rfl, k, parts, k1, hk, hlen, rfl⟩ hf, fun P out md => ?_⟩
      unfold triangulateAndDecompose decompositionList
      rw [hk]
      dsimp only
      rw [decomposeParts_eq P .dual irr vertex _ _ _ (by rw [collect_eq]; exact fun c hc => hlen c (List.mem_reverse.1 hc)), collect_eq]
      generalize barvinokDecompositionSingle P .dual irr vertex (parts.reverse.map listMat) out md = r
      match r with
      | .done true out1 md1 => exact hT P out1 md1
      | .done false out1 md1 => rfl
      | .notIrrational => rfl
      | .abort => rfl
  obtain ⟨Ts, hf, hT⟩ := hround cones 0 fun c hc => hc
  obtain ⟨he, hTri⟩ := parts_triangulation tri ht a b hf hv hr
  have hvs' : IsVertexList a b (Ts.map (·.1)) := by rw [he]; exact hvs
  obtain ⟨D, hgen, hD⟩ := c65_total_dual N' hN hsv X irr maxDet h1 hmax fuel hfuel a b S hS Ts hvs' hTri
  obtain ⟨good, hgood⟩ := hgen
  refine ⟨D, ⟨good, hgood⟩, fun lam => ?_⟩
  have eonce : triangulateAndCountOnce tri N' X .dual irr maxDet fuel cones lam = countOnce N' X .dual irr maxDet fuel Ts lam := by
    unfold triangulateAndCountOnce countOnce
    rw [hT]
    generalize decompositionList ⟨N', Variant.dual.mode, maxDet, fun _ C => acceptExp X lam fuel C⟩ .dual irr Ts [] 0 = o
    match o with
    | .done true out md => rfl
    | .done false out md => rfl
    | .notIrrational => rfl
    | .abort => rfl
  rw [eonce]
  by_cases hg : GenericFor lam D
  · left
    have h1 := hD 0 (fun _ => lam) (by omega) hg 1 (by omega)
    unfold decomposeAndCount at h1
    revert h1
    generalize countOnce N' X .dual irr maxDet fuel Ts lam = o
    intro h1
    match o, h1 with
    | .ok q, h1 =>
      dsimp only at h1
      by_cases hd : q.den = 1
      · rw [if_pos hd] at h1
        exact ⟨q, rfl, hd, Except.ok.inj h1⟩
      · rw [if_neg hd] at h1; cases h1
    | .error .notGeneric, h1 => cases h1
    | .error .fuel, h1 => cases h1
    | .error .abort, h1 => cases h1
  · have h1 := hD 1 (fun i => if i = 0 then lam else good) (by intro s hs; obtain rfl : s = 0 := by omega
                                                               exact hg) hgood 2 (by omega)
    unfold decomposeAndCount at h1
    beta_reduce at h1
    rw [if_pos rfl] at h1
    revert h1
    generalize countOnce N' X .dual irr maxDet fuel Ts lam = o
    intro h1
    match o, h1 with
    | .ok q, h1 =>
      left
      dsimp only at h1
      by_cases hd : q.den = 1
      · rw [if_pos hd] at h1
        exact ⟨q, rfl, hd, Except.ok.inj h1⟩
      · rw [if_neg hd] at h1; cases h1
    | .error .notGeneric, h1 => exact .inr ⟨hg, rfl⟩
    | .error .fuel, h1 => cases h1
    | .error .abort, h1 => cases h1

/-- **C75, counting, total correctness.** If in all rounds up to round `T` all cones are triangulated, then the cones delivered by the decomposition in these rounds
have generic vectors; and if the vector tried in round `T` is one (whatever the vectors in earlier rounds are), the program returns the number of lattice
points. -/
theorem c75_count_total (N' : Ntl (m + 1)) (hN : N'.Ok) (hsv : ShortVectors N') (X : Smith.Xgcd) (irr : Cone (m + 1) → Fin (m + 1) → ℚ)
    (maxDet : ℤ) (h1 : 1 ≤ maxDet) (hmax : maxDet ≤ Piped.intMax) (fuel : ℕ) (hfuel : maxDet < fuel)
    (a : Fin N → Vec (m + 1)) (b : Fin N → ℚ) (S : List (Vec (m + 1))) (hS : LatticePoints a b S)
    (cones : List ((Fin (m + 1) → ℚ) × List (Vec (m + 1)))) (hvs : IsVertexList a b (cones.map (·.1))) (hr : NormalRays a b cones)
    (tris : ℕ → List (Vec (m + 1)) → ℕ → Except Fail (List (List (Vec (m + 1))) × ℕ)) (ht : ∀ t, TriangulationOk (tris t)) (T : ℕ)
    (htot : ∀ t ≤ T, ∀ c ∈ cones, ∀ k, ∃ parts k', tris t c.2 k = .ok (parts, k') ∧ ∀ p ∈ parts, p.length = m + 1) :
    ∃ D : ℕ → List (Cone (m + 1)), (∀ t ≤ T, ∃ lam, GenericFor lam (D t)) ∧ ∀ (guesses : ℕ → Vec (m + 1)), GenericFor (guesses T) (D T) →
      ∀ tries, T < tries → triangulateAndCount N' X .dual irr maxDet fuel cones tries tris guesses = .ok (S.length : ℤ) := by
  have hround : ∀ t, ∃ D : List (Cone (m + 1)), t ≤ T → (∃ lam, GenericFor lam D) ∧ ∀ lam : Vec (m + 1),
      (∃ q : ℚ, triangulateAndCountOnce (tris t) N' X .dual irr maxDet fuel cones lam = .ok q ∧ q.den = 1 ∧ q.num = (S.length : ℤ)) ∨
        ¬ GenericFor lam D ∧ triangulateAndCountOnce (tris t) N' X .dual irr maxDet fuel cones lam = .error .notGeneric := by
    intro t
    by_cases h : t ≤ T
    · obtain ⟨D, hD⟩ := round_total N' hN hsv X irr maxDet h1 hmax fuel hfuel a b S hS cones hvs hr (tris t) (ht t) (htot t h)
      exact ⟨D, fun _ => hD⟩
    · exact ⟨[], fun h' => absurd h' h⟩
  choose D hD using hround
  refine ⟨D, fun t h => (hD t h).1, ?_⟩
  clear ht htot
  induction T generalizing tris D with
  | zero =>
    intro guesses hg tries htr
    obtain ⟨t, rfl⟩ : ∃ t, tries = t + 1 := ⟨tries - 1, by omega⟩
    unfold triangulateAndCount
    rcases (hD 0 le_rfl).2 (guesses 0) with ⟨q, h, hd, hn⟩ | ⟨h, -⟩
    · rw [h]
      dsimp only
      rw [if_pos hd, hn]
    · exact absurd hg h
  | succ T ih =>
    intro guesses hg tries htr
    obtain ⟨t, rfl⟩ : ∃ t, tries = t + 1 := ⟨tries - 1, by omega⟩
    unfold triangulateAndCount
    rcases (hD 0 (Nat.zero_le _)).2 (guesses 0) with ⟨q, h, hd, hn⟩ | ⟨-, h⟩
    · rw [h]
      dsimp only
      rw [if_pos hd, hn]
    · rw [h]
      dsimp only
      exact ih (fun i => tris (i + 1)) (fun i => D (i + 1)) (fun i hi => hD (i + 1) (by omega)) (fun i => guesses (i + 1)) hg t (by omega)

/-- **C75, violation: the assertion.** If a cone with more rays than dimensions is handed over, the assertion on the number of rays stops the program. -/
theorem c75_assertion (tri : List (Vec (m + 1)) → ℕ → Except Fail (List (List (Vec (m + 1))) × ℕ)) (N' : Ntl (m + 1)) (X : Smith.Xgcd) (v : Variant)
    (irr : Cone (m + 1) → Fin (m + 1) → ℚ) (maxDet : ℤ) (fuel : ℕ) (vertex : Fin (m + 1) → ℚ) (rays : List (Vec (m + 1))) (k : ℕ)
    (ht : tri rays 0 = .ok ([rays], k)) (hn : m + 1 < rays.length) (Cs : List ((Fin (m + 1) → ℚ) × List (Vec (m + 1)))) (lam : Vec (m + 1)) :
    triangulateAndCountOnce tri N' X v irr maxDet fuel ((vertex, rays) :: Cs) lam = .error .abort := by
  unfold triangulateAndCountOnce triangulateAndDecompose
  rw [ht]
  dsimp only
  have : collect [rays] = [rays] := rfl
  rw [this]
  unfold decomposeParts
  rw [if_neg (by omega)]

end Verif.Regular
