import Verif.Regular.Count
import Verif.Brion.Ehrhart

/-!
# Ehrhart polynomials with triangulations inside

`decomposeAndComputeEhrhartPolynomial` (ExponentialEhrhart.cpp 72–78) on vertex cones that were moved to the origin (count.cpp 375–396) and are triangulated in every
round of the loop of `barvinokDecomposition_List` (dec.cpp 137–163), and the proof that the coefficients returned are right.
-/

namespace Verif.Regular

open Verif.Barvinok Verif.ExpSubst Verif.Brion

variable {n N m : ℕ}

/-! ## Model -/

/-- A cone in Ehrhart mode before its triangulation: `vertex->vertex`, `vertex->ehrhart_vertex`, rays (cone.h:53–62). -/
structure MovedCone (n : ℕ) where
  vertex : Fin n → ℚ
  ehrhart : Vec n
  rays : List (Vec n)

/-- count.cpp:378–396 on the list of cones: `none` is `pe_RationalPolytope`. -/
def originCones : List ((Fin n → ℚ) × List (Vec n)) → Option (List (MovedCone n))
  | [] => some []
  | c :: cs =>
    match ehrhartVertex c.1 with
    | none => none
    | some ev =>
      match originCones cs with
      | none => none
      | some out => some (⟨0, ev, c.2⟩ :: out)

/-- The inner loop of `barvinokDecomposition_List` (dec.cpp:143–153), as `Verif.ExpSubst.decompositionE`, with the triangulation inside. -/
def triangulateAndDecomposeE [NeZero n] (tri : List (Vec n) → ℕ → Except Fail (List (List (Vec n)) × ℕ)) (N : Ntl n) (v : Variant) (irr : Cone n → Fin n → ℚ) (maxDet : ℤ)
    (acc : Vec n → Cone n → Bool) : List (MovedCone n) → List (Cone n × Vec n) → ℕ → ℕ → Except Fail (List (Cone n × Vec n))
  | [], out, _, _ => .ok out
  | C :: Cs, out, maxDepth, k =>
    match tri C.rays k with
    | .error e => .error e
    | .ok (parts, k) =>
      match decomposeParts ⟨N, v.mode, maxDet, fun _ D => acc C.ehrhart D⟩ v irr C.vertex (collect parts) [] maxDepth with
      | .done true new maxDepth => triangulateAndDecomposeE tri N v irr maxDet acc Cs (out ++ new.map fun D => (D, C.ehrhart)) maxDepth k
      | .done false _ _ => .error .notGeneric
      | .notIrrational => .error .abort
      | .abort => .error .abort

/-- One round of the do-while loop (dec.cpp:137–163) with the Ehrhart consumer (ExponentialEhrhart.cpp:26–70). -/
def triangulateAndEhrhartOnce (tri : List (Vec (m + 1)) → ℕ → Except Fail (List (List (Vec (m + 1))) × ℕ)) (N : Ntl (m + 1)) (X : Smith.Xgcd) (v : Variant)
    (irr : Cone (m + 1) → Fin (m + 1) → ℚ) (maxDet : ℤ) (fuel : ℕ) (cones : List (MovedCone (m + 1))) (generic : Vec (m + 1)) : Except Fail (ℕ → ℚ) :=
  match triangulateAndDecomposeE tri N v irr maxDet (acceptEhrhart X generic fuel) cones [] 0 0 with
  | .ok out => ehrhartSum X generic fuel out (fun _ => 0)
  | .error e => .error e

/-- `decomposeAndComputeEhrhartPolynomial` (ExponentialEhrhart.cpp:72–78) with the retry loop; `tris t` is the triangulation in round `t`. -/
def triangulateAndEhrhart (N : Ntl (m + 1)) (X : Smith.Xgcd) (v : Variant) (irr : Cone (m + 1) → Fin (m + 1) → ℚ) (maxDet : ℤ) (fuel : ℕ)
    (cones : List (MovedCone (m + 1))) :
    (tries : ℕ) → (tris : ℕ → List (Vec (m + 1)) → ℕ → Except Fail (List (List (Vec (m + 1))) × ℕ)) → (guesses : ℕ → Vec (m + 1)) → Except Fail (ℕ → ℚ)
  | 0, _, _ => .error .fuel
  | t + 1, tris, guesses =>
    match triangulateAndEhrhartOnce (tris 0) N X v irr maxDet fuel cones (guesses 0) with
    | .ok coeffs => .ok coeffs
    | .error .notGeneric => triangulateAndEhrhart N X v irr maxDet fuel cones t (fun i => tris (i + 1)) (fun i => guesses (i + 1))
    | .error e => .error e

/-! ## Which cones are moved -/

theorem originCones_none (cones : List ((Fin n → ℚ) × List (Vec n))) : originCones cones = none ↔ ∃ c ∈ cones, ¬ ∃ z : Vec n, ∀ k, (z k : ℚ) = c.1 k := by
  induction cones with
  | nil => simp [originCones]
  | cons c cs ih =>
    unfold originCones
    cases h : ehrhartVertex c.1 with
    | none => simpa using Or.inl ((ehrhartVertex_none c.1).1 h)
    | some ev =>
      dsimp only
      have hex : ∃ z : Vec n, ∀ k, (z k : ℚ) = c.1 k := ⟨ev, ehrhartVertex_some _ _ h⟩
      cases h2 : originCones cs with
      | none =>
        obtain ⟨c', hc', hn⟩ := ih.1 h2
        simp only [true_iff]
        exact ⟨c', List.mem_cons_of_mem _ hc', hn⟩
      | some out =>
        simp only [List.mem_cons, exists_eq_or_imp, reduceCtorEq, false_iff, not_or]
        refine ⟨fun h => h hex, fun h3 => ?_⟩
        rw [ih.2 h3] at h2
        cases h2

/-- The simplices used in a round, for one moved cone. -/
def PartsE (tri : List (Vec n) → ℕ → Except Fail (List (List (Vec n)) × ℕ)) (c : MovedCone n) (t : EhrhartCone n) : Prop :=
  t.vertex = c.vertex ∧ t.ehrhart = c.ehrhart ∧ ∃ k parts k', tri c.rays k = .ok (parts, k') ∧ (∀ p ∈ parts, p.length = n) ∧ t.simplices = parts.reverse.map listMat

theorem triangulateAndDecomposeE_ok [NeZero n] (tri : List (Vec n) → ℕ → Except Fail (List (List (Vec n)) × ℕ)) (N : Ntl n) (v : Variant)
    (irr : Cone n → Fin n → ℚ) (maxDet : ℤ) (acc : Vec n → Cone n → Bool) :
    ∀ (cones : List (MovedCone n)) (out : List (Cone n × Vec n)) (md k : ℕ) (out' : List (Cone n × Vec n)),
      triangulateAndDecomposeE tri N v irr maxDet acc cones out md k = .ok out' →
      ∃ Ts, List.Forall₂ (PartsE tri) cones Ts ∧ decompositionE N v irr maxDet acc Ts out md = .ok out' := by
  intro cones
  induction cones with
  | nil =>
    intro out md k out' h
    exact ⟨[], .nil, h⟩
  | cons c cones ih =>
    intro out md k out' h
    unfold triangulateAndDecomposeE at h
    cases ht : tri c.rays k with
    | error e => rw [ht] at h; cases h
    | ok p =>
      obtain ⟨parts, k1⟩ := p
      rw [ht] at h
      dsimp only at h
      cases hd : decomposeParts ⟨N, v.mode, maxDet, fun _ D => acc c.ehrhart D⟩ v irr c.vertex (collect parts) [] md with
      | notIrrational => rw [hd] at h; cases h
      | abort => rw [hd] at h; cases h
      | done ok out1 md1 =>
        rw [hd] at h
        cases ok with
        | false => cases h
        | true =>
          dsimp only at h
          obtain ⟨Ts, h1, h2⟩ := ih _ _ _ _ h
          obtain ⟨h3, h4⟩ := decomposeParts_done _ v irr c.vertex _ _ _ _ _ hd
          rw [collect_eq] at h3 h4
          refine ⟨⟨c.vertex, c.ehrhart, parts.reverse.map listMat⟩ :: Ts, .cons ⟨rfl, rfl, k, parts, k1, ht, fun p hp => h3 p (List.mem_reverse.2 hp), rfl⟩ h1, ?_⟩
          unfold decompositionE
          dsimp only
          rw [h4]
          exact h2

/-- The moved simplices are those of the cones before they were moved. -/
theorem partsE_origin (tri : List (Vec n) → ℕ → Except Fail (List (List (Vec n)) × ℕ)) :
    ∀ (cones : List ((Fin n → ℚ) × List (Vec n))) (moved : List (MovedCone n)) (Ts' : List (EhrhartCone n)), originCones cones = some moved →
      List.Forall₂ (PartsE tri) moved Ts' → ∃ Ts, List.Forall₂ (Parts tri) cones Ts ∧ toOrigin Ts = some Ts' := by
  intro cones
  induction cones with
  | nil =>
    intro moved Ts' h hf
    cases h
    cases hf
    exact ⟨[], .nil, rfl⟩
  | cons c cs ih =>
    intro moved Ts' h hf
    unfold originCones at h
    cases hev : ehrhartVertex c.1 with
    | none => rw [hev] at h; cases h
    | some ev =>
      rw [hev] at h
      cases ho : originCones cs with
      | none => rw [ho] at h; cases h
      | some out =>
        rw [ho] at h
        cases h
        cases hf with
        | @cons _ t _ Ts' hp hf =>
          obtain ⟨Ts, h1, h2⟩ := ih _ _ ho hf
          obtain ⟨e1, e2, k, parts, k', h3, h4, h5⟩ := hp
          refine ⟨(c.1, t.simplices) :: Ts, .cons ⟨rfl, k, parts, k', h3, h4, h5⟩ h1, ?_⟩
          unfold toOrigin
          simp only [hev, h2]
          congr 2
          cases t
          simp only at e1 e2
          rw [e1, e2]

/-! ## The coefficients are right -/

theorem ehrhart_once (N' : Ntl (m + 1)) (hN : N'.Ok) (X : Smith.Xgcd) (irr : Cone (m + 1) → Fin (m + 1) → ℚ)
    (maxDet : ℤ) (h0 : maxDet ≠ 0) (hmax : maxDet ≤ Piped.intMax) (fuel : ℕ) (hfuel : maxDet < fuel)
    (a : Fin N → Vec (m + 1)) (b : Fin N → ℚ)
    (cones : List ((Fin (m + 1) → ℚ) × List (Vec (m + 1)))) (hvs : IsVertexList a b (cones.map (·.1))) (hr : NormalRays a b cones)
    (moved : List (MovedCone (m + 1))) (hm : originCones cones = some moved)
    (tri : List (Vec (m + 1)) → ℕ → Except Fail (List (List (Vec (m + 1))) × ℕ)) (ht : TriangulationOk tri)
    (lam : Vec (m + 1)) (coeffs : ℕ → ℚ) (h : triangulateAndEhrhartOnce tri N' X .dual irr maxDet fuel moved lam = .ok coeffs) : IsEhrhart a b coeffs := by
  have hv : ∀ c ∈ cones, (fun k => (c.1 k : ℝ)) ∈ (Poly a fun i => (b i : ℝ)).extremePoints ℝ := fun c hc =>
    (hvs.mem _).1 ⟨c.1, List.mem_map_of_mem hc, rfl⟩
  unfold triangulateAndEhrhartOnce at h
  cases hd : triangulateAndDecomposeE tri N' .dual irr maxDet (acceptEhrhart X lam fuel) moved [] 0 0 with
  | error e => rw [hd] at h; cases h
  | ok out =>
    rw [hd] at h
    obtain ⟨Ts', hf', hdec⟩ := triangulateAndDecomposeE_ok tri N' .dual irr maxDet _ moved [] 0 0 out hd
    obtain ⟨Ts, hf, hto⟩ := partsE_origin tri cones moved Ts' hm hf'
    obtain ⟨he, hT⟩ := parts_triangulation tri ht a b hf hv hr
    have hvs' : IsVertexList a b (Ts.map (·.1)) := by rw [he]; exact hvs
    refine c69_dual N' hN X irr maxDet h0 hmax fuel hfuel a b Ts hvs' hT Ts' hto 1 (fun _ => lam) coeffs ?_
    unfold decomposeAndEhrhart ehrhartOnce
    rw [hdec]
    dsimp only
    dsimp only at h
    rw [h]

/-- **C69 with triangulations.** For every polytope: if the cones are moved to the origin and the loop ends with coefficients, their polynomial counts the lattice points of
every dilation, whatever the random numbers and triangulations in the rounds are. -/
theorem c69_triangulated (N' : Ntl (m + 1)) (hN : N'.Ok) (X : Smith.Xgcd) (irr : Cone (m + 1) → Fin (m + 1) → ℚ)
    (maxDet : ℤ) (h0 : maxDet ≠ 0) (hmax : maxDet ≤ Piped.intMax) (fuel : ℕ) (hfuel : maxDet < fuel)
    (a : Fin N → Vec (m + 1)) (b : Fin N → ℚ)
    (cones : List ((Fin (m + 1) → ℚ) × List (Vec (m + 1)))) (hvs : IsVertexList a b (cones.map (·.1))) (hr : NormalRays a b cones)
    (moved : List (MovedCone (m + 1))) (hm : originCones cones = some moved)
    (tries : ℕ) (tris : ℕ → List (Vec (m + 1)) → ℕ → Except Fail (List (List (Vec (m + 1))) × ℕ)) (ht : ∀ t, TriangulationOk (tris t))
    (guesses : ℕ → Vec (m + 1)) (coeffs : ℕ → ℚ) (h : triangulateAndEhrhart N' X .dual irr maxDet fuel moved tries tris guesses = .ok coeffs) : IsEhrhart a b coeffs := by
  induction tries generalizing tris guesses with
  | zero => cases h
  | succ t ih =>
    unfold triangulateAndEhrhart at h
    cases ho : triangulateAndEhrhartOnce (tris 0) N' X .dual irr maxDet fuel moved (guesses 0) with
    | error e =>
      rw [ho] at h
      cases e with
      | notGeneric => exact ih _ (fun t => ht (t + 1)) _ h
      | abort => cases h
      | undefined => cases h
      | fuel => cases h
    | ok q =>
      rw [ho] at h
      rw [← Except.ok.inj h]
      exact ehrhart_once N' hN X irr maxDet h0 hmax fuel hfuel a b cones hvs hr moved hm (tris 0) (ht 0) _ q ho

/-! ## Total correctness -/

/-- If all cones are triangulated, the round is one with fixed simplices. -/
theorem triangulateE_total [NeZero n] (tri : List (Vec n) → ℕ → Except Fail (List (List (Vec n)) × ℕ)) (N : Ntl n) (v : Variant)
    (irr : Cone n → Fin n → ℚ) (maxDet : ℤ) (L : List (MovedCone n)) (htot : ∀ c ∈ L, ∀ k, ∃ parts k', tri c.rays k = .ok (parts, k') ∧ ∀ p ∈ parts, p.length = n) :
    ∀ k, ∃ Ts, List.Forall₂ (PartsE tri) L Ts ∧ ∀ (acc : Vec n → Cone n → Bool) (out : List (Cone n × Vec n)) (md : ℕ),
      triangulateAndDecomposeE tri N v irr maxDet acc L out md k = decompositionE N v irr maxDet acc Ts out md := by
  induction L with
  | nil => intro k; exact ⟨[], .nil, fun _ _ _ => rfl⟩
  | cons c L ih =>
    intro k
    obtain ⟨parts, k1, hk, hlen⟩ := htot c List.mem_cons_self k
    obtain ⟨Ts, hf, hT⟩ := ih (fun c hc => htot c (List.mem_cons_of_mem _ hc)) k1
    refine ⟨⟨c.vertex, c.ehrhart, parts.reverse.map listMat⟩ :: Ts, .cons ⟨rfl, rfl, k, parts, k1, hk, hlen, rfl⟩ hf, fun acc out md => ?_⟩
    unfold triangulateAndDecomposeE decompositionE
    rw [hk]
    dsimp only
    rw [decomposeParts_eq _ v irr c.vertex _ _ _ (by rw [collect_eq]; exact fun c hc => hlen c (List.mem_reverse.1 hc)), collect_eq]
    generalize barvinokDecompositionSingle _ v irr c.vertex (parts.reverse.map listMat) [] md = r
    match r with
    | .done true out1 md1 => exact hT acc _ md1
    | .done false out1 md1 => rfl
    | .notIrrational => rfl
    | .abort => rfl

/-- One round in which all cones are triangulated. -/
theorem ehrhart_round (N' : Ntl (m + 1)) (hN : N'.Ok) (hsv : ShortVectors N') (X : Smith.Xgcd) (irr : Cone (m + 1) → Fin (m + 1) → ℚ)
    (maxDet : ℤ) (h1 : 1 ≤ maxDet) (hmax : maxDet ≤ Piped.intMax) (fuel : ℕ) (hfuel : maxDet < fuel)
    (a : Fin N → Vec (m + 1)) (b : Fin N → ℚ)
    (cones : List ((Fin (m + 1) → ℚ) × List (Vec (m + 1)))) (hvs : IsVertexList a b (cones.map (·.1))) (hr : NormalRays a b cones)
    (hint : ∀ c ∈ cones, ∃ z : Vec (m + 1), ∀ k, (z k : ℚ) = c.1 k)
    (moved : List (MovedCone (m + 1))) (hm : originCones cones = some moved)
    (tri : List (Vec (m + 1)) → ℕ → Except Fail (List (List (Vec (m + 1))) × ℕ)) (ht : TriangulationOk tri)
    (htot : ∀ c ∈ moved, ∀ k, ∃ parts k', tri c.rays k = .ok (parts, k') ∧ ∀ p ∈ parts, p.length = m + 1) :
    ∃ D : List (Cone (m + 1) × Vec (m + 1)), (∃ lam, GenericForE lam D) ∧ ∀ lam : Vec (m + 1),
      (∃ c, triangulateAndEhrhartOnce tri N' X .dual irr maxDet fuel moved lam = .ok c) ∨
        ¬ GenericForE lam D ∧ triangulateAndEhrhartOnce tri N' X .dual irr maxDet fuel moved lam = .error .notGeneric := by
  have hv : ∀ c ∈ cones, (fun k => (c.1 k : ℝ)) ∈ (Poly a fun i => (b i : ℝ)).extremePoints ℝ := fun c hc =>
    (hvs.mem _).1 ⟨c.1, List.mem_map_of_mem hc, rfl⟩
  obtain ⟨Ts', hf', hT⟩ := triangulateE_total tri N' .dual irr maxDet moved htot 0
  obtain ⟨Ts, hf, hto⟩ := partsE_origin tri cones moved Ts' hm hf'
  obtain ⟨he, hTri⟩ := parts_triangulation tri ht a b hf hv hr
  have hvs' : IsVertexList a b (Ts.map (·.1)) := by rw [he]; exact hvs
  have hint' : ∀ c ∈ Ts, ∃ z : Vec (m + 1), ∀ k, (z k : ℚ) = c.1 k := by
    intro c hc
    have : c.1 ∈ cones.map (·.1) := by rw [← he]; exact List.mem_map_of_mem hc
    obtain ⟨c', hc', e⟩ := List.mem_map.1 this
    rw [← e]
    exact hint c' hc'
  obtain ⟨moved', hm', D, ⟨good, hgood⟩, hD⟩ := c69_total_dual N' hN hsv X irr maxDet h1 hmax fuel hfuel a b Ts hvs' hint' hTri
  rw [hto] at hm'
  cases hm'
  refine ⟨D, ⟨good, hgood⟩, fun lam => ?_⟩
  have eonce : triangulateAndEhrhartOnce tri N' X .dual irr maxDet fuel moved lam = ehrhartOnce N' X .dual irr maxDet fuel Ts' lam := by
    unfold triangulateAndEhrhartOnce ehrhartOnce
    rw [hT]
    rfl
  rw [eonce]
  by_cases hg : GenericForE lam D
  · left
    obtain ⟨c, h1, -⟩ := hD 0 (fun _ => lam) (by omega) hg 1 (by omega)
    unfold decomposeAndEhrhart at h1
    revert h1
    generalize ehrhartOnce N' X .dual irr maxDet fuel Ts' lam = o
    intro h1
    match o, h1 with
    | .ok q, h1 => exact ⟨q, rfl⟩
    | .error .notGeneric, h1 => cases h1
    | .error .fuel, h1 => cases h1
    | .error .abort, h1 => cases h1
  · obtain ⟨c, h1, -⟩ := hD 1 (fun i => if i = 0 then lam else good) (fun s hs => by rw [show s = 0 by omega]; exact hg) hgood 2 (by omega)
    unfold decomposeAndEhrhart at h1
    beta_reduce at h1
    rw [if_pos rfl] at h1
    revert h1
    generalize ehrhartOnce N' X .dual irr maxDet fuel Ts' lam = o
    intro h1
    match o, h1 with
    | .ok q, h1 => exact .inl ⟨q, rfl⟩
    | .error .notGeneric, h1 => exact .inr ⟨hg, rfl⟩
    | .error .fuel, h1 => cases h1
    | .error .abort, h1 => cases h1

/-- **C69 with triangulations, total correctness.** For every integral polytope: the cones are moved to the origin, and if all cones are triangulated in the rounds up to round `T`
and the vector tried in that round is generic for finitely many cones (such vectors exist), coefficients are returned. -/
theorem c69_triangulated_total (N' : Ntl (m + 1)) (hN : N'.Ok) (hsv : ShortVectors N') (X : Smith.Xgcd) (irr : Cone (m + 1) → Fin (m + 1) → ℚ)
    (maxDet : ℤ) (h1 : 1 ≤ maxDet) (hmax : maxDet ≤ Piped.intMax) (fuel : ℕ) (hfuel : maxDet < fuel)
    (a : Fin N → Vec (m + 1)) (b : Fin N → ℚ)
    (cones : List ((Fin (m + 1) → ℚ) × List (Vec (m + 1)))) (hvs : IsVertexList a b (cones.map (·.1))) (hr : NormalRays a b cones)
    (hint : ∀ c ∈ cones, ∃ z : Vec (m + 1), ∀ k, (z k : ℚ) = c.1 k)
    (tris : ℕ → List (Vec (m + 1)) → ℕ → Except Fail (List (List (Vec (m + 1))) × ℕ)) (ht : ∀ t, TriangulationOk (tris t)) (T : ℕ)
    (htot : ∀ t ≤ T, ∀ c ∈ cones, ∀ k, ∃ parts k', tris t c.2 k = .ok (parts, k') ∧ ∀ p ∈ parts, p.length = m + 1) :
    ∃ moved, originCones cones = some moved ∧ ∃ D : ℕ → List (Cone (m + 1) × Vec (m + 1)), (∀ t ≤ T, ∃ lam, GenericForE lam (D t)) ∧
      ∀ (guesses : ℕ → Vec (m + 1)), GenericForE (guesses T) (D T) → ∀ tries, T < tries →
        ∃ coeffs, triangulateAndEhrhart N' X .dual irr maxDet fuel moved tries tris guesses = .ok coeffs ∧ IsEhrhart a b coeffs := by
  obtain ⟨moved, hm⟩ : ∃ moved, originCones cones = some moved := by
    cases h : originCones cones with
    | some out => exact ⟨out, rfl⟩
    | none =>
      obtain ⟨c, hc, hn⟩ := (originCones_none cones).1 h
      exact absurd (hint c hc) hn
  refine ⟨moved, hm, ?_⟩
  have hmr : ∀ c ∈ moved, ∃ c' ∈ cones, c.rays = c'.2 := by
    clear hvs hr hint htot
    induction cones generalizing moved with
    | nil => cases hm; simp
    | cons c cs ih =>
      unfold originCones at hm
      cases hev : ehrhartVertex c.1 with
      | none => rw [hev] at hm; cases hm
      | some ev =>
        rw [hev] at hm
        cases ho : originCones cs with
        | none => rw [ho] at hm; cases hm
        | some out =>
          rw [ho] at hm
          cases hm
          intro c' hc'
          rcases List.mem_cons.1 hc' with rfl | hc'
          · exact ⟨c, List.mem_cons_self, rfl⟩
          · obtain ⟨d, hd, e⟩ := ih out ho c' hc'
            exact ⟨d, List.mem_cons_of_mem _ hd, e⟩
  have htot' : ∀ t ≤ T, ∀ c ∈ moved, ∀ k, ∃ parts k', tris t c.rays k = .ok (parts, k') ∧ ∀ p ∈ parts, p.length = m + 1 := by
    intro t h c hc k
    obtain ⟨c', hc', e⟩ := hmr c hc
    rw [e]
    exact htot t h c' hc' k
  have hround : ∀ t, ∃ D : List (Cone (m + 1) × Vec (m + 1)), t ≤ T → (∃ lam, GenericForE lam D) ∧ ∀ lam : Vec (m + 1),
      (∃ c, triangulateAndEhrhartOnce (tris t) N' X .dual irr maxDet fuel moved lam = .ok c) ∨
        ¬ GenericForE lam D ∧ triangulateAndEhrhartOnce (tris t) N' X .dual irr maxDet fuel moved lam = .error .notGeneric := by
    intro t
    by_cases h : t ≤ T
    · obtain ⟨D, hD⟩ := ehrhart_round N' hN hsv X irr maxDet h1 hmax fuel hfuel a b cones hvs hr hint moved hm (tris t) (ht t) (htot' t h)
      exact ⟨D, fun _ => hD⟩
    · exact ⟨[], fun h' => absurd h' h⟩
  choose D hD using hround
  refine ⟨D, fun t h => (hD t h).1, fun guesses hg tries htr => ?_⟩
  suffices hs : ∃ coeffs, triangulateAndEhrhart N' X .dual irr maxDet fuel moved tries tris guesses = .ok coeffs by
    obtain ⟨coeffs, hc⟩ := hs
    exact ⟨coeffs, hc, c69_triangulated N' hN X irr maxDet (by omega) hmax fuel hfuel a b cones hvs hr moved hm tries tris ht guesses coeffs hc⟩
  clear ht htot htot'
  induction T generalizing tris D guesses tries with
  | zero =>
    obtain ⟨t, rfl⟩ : ∃ t, tries = t + 1 := ⟨tries - 1, by omega⟩
    unfold triangulateAndEhrhart
    rcases (hD 0 le_rfl).2 (guesses 0) with ⟨q, h⟩ | ⟨h, -⟩
    · rw [h]
      exact ⟨q, rfl⟩
    · exact absurd hg h
  | succ T ih =>
    obtain ⟨t, rfl⟩ : ∃ t, tries = t + 1 := ⟨tries - 1, by omega⟩
    unfold triangulateAndEhrhart
    rcases (hD 0 (Nat.zero_le _)).2 (guesses 0) with ⟨q, h⟩ | ⟨-, h⟩
    · rw [h]
      exact ⟨q, rfl⟩
    · rw [h]
      exact ih (fun i => tris (i + 1)) (fun i => D (i + 1)) (fun i hi => hD (i + 1) (by omega)) (fun i => guesses (i + 1)) hg t (by omega)

end Verif.Regular
