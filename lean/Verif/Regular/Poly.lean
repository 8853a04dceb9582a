import Verif.Regular.Count
import Verif.PolySubst.Brion

/-!
# Counting with the default substitution, triangulations inside

`decomposeAndComputeResidue` (barvinok/dec.cpp 200–285) on vertex cones that are triangulated in every round of the loop of `barvinokDecomposition_List`
(dec.cpp 137–163), and the proof that the number returned is right.
-/

namespace Verif.Regular

open Verif.Barvinok Verif.ExpSubst Verif.Brion Verif.PolySubst

variable {N m : ℕ}

/-- The body of the do-while loop of `barvinokDecomposition_List` with the consumer of `decomposeAndComputeResidue` (dec.cpp:137–163, 167–199), like
`Verif.PolySubst.polyOnce` but with the triangulation inside. -/
def triangulateAndResidueOnce (tri : List (Vec (m + 1)) → ℕ → Except Fail (List (List (Vec (m + 1))) × ℕ)) (N : Ntl (m + 1)) (X : Smith.Xgcd)
    (v : Variant) (irr : Cone (m + 1) → Fin (m + 1) → ℚ) (maxDet : ℤ) (fuel : ℕ) (tenPower : ℤ) (cones : List ((Fin (m + 1) → ℚ) × List (Vec (m + 1))))
    (generic : Vec (m + 1)) : Except Fail ℤ :=
  match triangulateAndDecompose tri ⟨N, v.mode, maxDet, fun _ C => acceptPoly X tenPower generic fuel C⟩ v irr cones [] 0 0 with
  | .error e => .error e
  | .ok (.done true out _) => totalPoints X tenPower generic fuel out 0
  | .ok (.done false _ _) => .error .notGeneric
  | .ok .notIrrational => .error .abort
  | .ok .abort => .error .abort

/-- `decomposeAndComputeResidue`, dec.cpp:200–285, with the retry loop; `tris t` is the triangulation in round `t`. -/
def triangulateAndResidue (N : Ntl (m + 1)) (X : Smith.Xgcd) (v : Variant) (irr : Cone (m + 1) → Fin (m + 1) → ℚ) (maxDet : ℤ) (fuel : ℕ)
    (cones : List ((Fin (m + 1) → ℚ) × List (Vec (m + 1)))) :
    (tries : ℕ) → (tris : ℕ → List (Vec (m + 1)) → ℕ → Except Fail (List (List (Vec (m + 1))) × ℕ)) → (guesses : ℕ → Vec (m + 1)) → Except Fail ℤ
  | 0, _, _ => .error .fuel
  | t + 1, tris, guesses =>
    match triangulateAndResidueOnce (tris 0) N X v irr maxDet fuel tenPowerConst cones (guesses 0) with
    | .ok total => .ok (roundTotal tenPowerConst total)
    | .error .notGeneric => triangulateAndResidue N X v irr maxDet fuel cones t (fun i => tris (i + 1)) (fun i => guesses (i + 1))
    | .error e => .error e

/-- **Specification.** The decompositions of the cones with one triangulation have at most `5·10⁹` terms. -/
def FewTerms (N' : Ntl (m + 1)) (irr : Cone (m + 1) → Fin (m + 1) → ℚ) (maxDet : ℤ)
    (tri : List (Vec (m + 1)) → ℕ → Except Fail (List (List (Vec (m + 1))) × ℕ)) (cones : List ((Fin (m + 1) → ℚ) × List (Vec (m + 1)))) : Prop :=
  ∀ Ts D, List.Forall₂ (Parts tri) cones Ts → delivered N' .dual irr maxDet Ts = some D → terms D ≤ 5 * 10 ^ 9

/-- A round that ends with a total ends with the right one. -/
theorem poly_once (N' : Ntl (m + 1)) (hN : N'.Ok) (hsv : ShortVectors N') (X : Smith.Xgcd) (irr : Cone (m + 1) → Fin (m + 1) → ℚ)
    (maxDet : ℤ) (h1 : 1 ≤ maxDet) (hmax : ((m + 1 : ℕ) : ℤ) * maxDet ≤ Piped.intMax) (fuel : ℕ) (hfuel : maxDet < fuel)
    (a : Fin N → Vec (m + 1)) (b : Fin N → ℚ) (S : List (Vec (m + 1))) (hS : LatticePoints a b S)
    (cones : List ((Fin (m + 1) → ℚ) × List (Vec (m + 1)))) (hvs : IsVertexList a b (cones.map (·.1))) (hr : NormalRays a b cones)
    (tri : List (Vec (m + 1)) → ℕ → Except Fail (List (List (Vec (m + 1))) × ℕ)) (ht : TriangulationOk tri) (hfew : FewTerms N' irr maxDet tri cones)
    (lam : Vec (m + 1)) (q : ℤ) (ho : triangulateAndResidueOnce tri N' X .dual irr maxDet fuel tenPowerConst cones lam = .ok q) :
    roundTotal tenPowerConst q = S.length := by
  have hv : ∀ c ∈ cones, (fun k => (c.1 k : ℝ)) ∈ (Poly a fun i => (b i : ℝ)).extremePoints ℝ := fun c hc =>
    (hvs.mem _).1 ⟨c.1, List.mem_map_of_mem hc, rfl⟩
  unfold triangulateAndResidueOnce at ho
  cases hd : triangulateAndDecompose tri ⟨N', Variant.dual.mode, maxDet, fun _ C => acceptPoly X tenPowerConst lam fuel C⟩ .dual irr cones [] 0 0 with
  | error e => rw [hd] at ho; cases ho
  | ok o =>
    rw [hd] at ho
    match o, hd, ho with
    | .done true out md, hd, ho =>
      dsimp only at ho
      obtain ⟨Ts, hf, hdec⟩ := triangulateAndDecompose_done tri _ .dual irr cones [] 0 0 out md hd
      obtain ⟨he, hT⟩ := parts_triangulation tri ht a b hf hv hr
      have hvs' : IsVertexList a b (Ts.map (·.1)) := by rw [he]; exact hvs
      obtain ⟨D, hD⟩ := delivered_dual N' hsv irr maxDet h1 Ts fun c hc => (hT c hc).simplicial
      obtain ⟨g, hg, hind⟩ := dual_indicators a b Ts hvs' hT S hS .dual (by decide)
      have hc : decomposeAndComputeResidue N' X .dual irr maxDet fuel Ts 1 (fun _ => lam) = .ok (roundTotal tenPowerConst q) := by
        unfold decomposeAndComputeResidue polyOnce
        rw [hdec]
        dsimp only
        rw [ho]
      exact c70_answer N' hN X .dual irr (by intro h; cases h) maxDet h1 hmax fuel hfuel Ts D hD (hfew Ts D hf hD) S hS.nodup g hg hind 1 _ _ hc

/-- **C76, the default substitution.** The program triangulates the normal cones, decomposes the parts and adds up the residues in fixed precision, with new random numbers
in every round.  If the decompositions have at most `5·10⁹` terms, a number returned is the number of lattice points of the polytope. -/
theorem c76_poly_count (N' : Ntl (m + 1)) (hN : N'.Ok) (hsv : ShortVectors N') (X : Smith.Xgcd) (irr : Cone (m + 1) → Fin (m + 1) → ℚ)
    (maxDet : ℤ) (h1 : 1 ≤ maxDet) (hmax : ((m + 1 : ℕ) : ℤ) * maxDet ≤ Piped.intMax) (fuel : ℕ) (hfuel : maxDet < fuel)
    (a : Fin N → Vec (m + 1)) (b : Fin N → ℚ) (S : List (Vec (m + 1))) (hS : LatticePoints a b S)
    (cones : List ((Fin (m + 1) → ℚ) × List (Vec (m + 1)))) (hvs : IsVertexList a b (cones.map (·.1))) (hr : NormalRays a b cones)
    (tries : ℕ) (tris : ℕ → List (Vec (m + 1)) → ℕ → Except Fail (List (List (Vec (m + 1))) × ℕ)) (ht : ∀ t, TriangulationOk (tris t))
    (hfew : ∀ t < tries, FewTerms N' irr maxDet (tris t) cones)
    (guesses : ℕ → Vec (m + 1)) (r : ℤ) (h : triangulateAndResidue N' X .dual irr maxDet fuel cones tries tris guesses = .ok r) : r = S.length := by
  induction tries generalizing tris guesses with
  | zero => cases h
  | succ t ih =>
    unfold triangulateAndResidue at h
    cases ho : triangulateAndResidueOnce (tris 0) N' X .dual irr maxDet fuel tenPowerConst cones (guesses 0) with
    | error e =>
      rw [ho] at h
      cases e with
      | notGeneric => exact ih _ (fun t => ht (t + 1)) (fun s hs => hfew (s + 1) (by omega)) _ h
      | abort => cases h
      | undefined => cases h
      | fuel => cases h
    | ok q =>
      rw [ho] at h
      rw [← Except.ok.inj h]
      exact poly_once N' hN hsv X irr maxDet h1 hmax fuel hfuel a b S hS cones hvs hr (tris 0) (ht 0) (hfew 0 (by omega)) _ q ho

/-- One round in which all cones are triangulated. -/
theorem poly_round (N' : Ntl (m + 1)) (hN : N'.Ok) (hsv : ShortVectors N') (X : Smith.Xgcd) (irr : Cone (m + 1) → Fin (m + 1) → ℚ)
    (maxDet : ℤ) (h1 : 1 ≤ maxDet) (hmax : ((m + 1 : ℕ) : ℤ) * maxDet ≤ Piped.intMax) (fuel : ℕ) (hfuel : maxDet < fuel)
    (a : Fin N → Vec (m + 1)) (b : Fin N → ℚ) (S : List (Vec (m + 1))) (hS : LatticePoints a b S)
    (cones : List ((Fin (m + 1) → ℚ) × List (Vec (m + 1)))) (hvs : IsVertexList a b (cones.map (·.1))) (hr : NormalRays a b cones)
    (tri : List (Vec (m + 1)) → ℕ → Except Fail (List (List (Vec (m + 1))) × ℕ)) (ht : TriangulationOk tri)
    (htot : ∀ c ∈ cones, ∀ k, ∃ parts k', tri c.2 k = .ok (parts, k') ∧ ∀ p ∈ parts, p.length = m + 1) :
    ∃ D : List (Cone (m + 1)), (∃ lam, GenericFor lam D) ∧ ∀ lam : Vec (m + 1),
      (∃ q : ℤ, triangulateAndResidueOnce tri N' X .dual irr maxDet fuel tenPowerConst cones lam = .ok q) ∨
        ¬ GenericFor lam D ∧ triangulateAndResidueOnce tri N' X .dual irr maxDet fuel tenPowerConst cones lam = .error .notGeneric := by
  have hv : ∀ c ∈ cones, (fun k => (c.1 k : ℝ)) ∈ (Poly a fun i => (b i : ℝ)).extremePoints ℝ := fun c hc =>
    (hvs.mem _).1 ⟨c.1, List.mem_map_of_mem hc, rfl⟩
  have hround : ∀ (L : List ((Fin (m + 1) → ℚ) × List (Vec (m + 1)))) (k : ℕ), (∀ c ∈ L, c ∈ cones) → ∃ Ts, List.Forall₂ (Parts tri) L Ts ∧
      ∀ (P : Params (m + 1)) (out : List (Cone (m + 1))) (md : ℕ),
        triangulateAndDecompose tri P .dual irr L out md k = .ok (decompositionList P .dual irr Ts out md) := by
    intro L
    induction L with
    | nil => intro k _; exact ⟨[], .nil, fun P out md => rfl⟩
    | cons c L ih =>
      obtain ⟨vertex, rays⟩ := c
      intro k hL
      obtain ⟨parts, k1, hk, hlen⟩ := htot (vertex, rays) (hL _ List.mem_cons_self) k
      obtain ⟨Ts, hf, hT⟩ := ih k1 fun c hc => hL c (List.mem_cons_of_mem _ hc)
      refine ⟨(vertex, parts.reverse.map listMat) :: Ts, .cons ⟨rfl, k, parts, k1, hk, hlen, rfl⟩ hf, fun P out md => ?_⟩
      unfold triangulateAndDecompose decompositionList
      rw [hk]
      dsimp only
      rw [decomposeParts_eq P .dual irr vertex _ _ _ (by rw [collect_eq]; exact fun c hc => hlen c (List.mem_reverse.1 hc)), collect_eq]
      generalize barvinokDecompositionSingle P .dual irr vertex (parts.reverse.map listMat) out md = r
      match r with
      | .done true out1 md1 => exact hT P out1 md1
      | .done false out1 md1 => rfl
      | .notIrrational => rfl
      | .abort => rfl
  obtain ⟨Ts, hf, hT⟩ := hround cones 0 fun c hc => hc
  obtain ⟨he, hTri⟩ := parts_triangulation tri ht a b hf hv hr
  have hvs' : IsVertexList a b (Ts.map (·.1)) := by rw [he]; exact hvs
  obtain ⟨D, hD⟩ := delivered_dual N' hsv irr maxDet h1 Ts fun c hc => (hTri c hc).simplicial
  obtain ⟨g, hg, hind⟩ := dual_indicators a b Ts hvs' hTri S hS .dual (by decide)
  refine ⟨D, c42_generic_vector_exists N' hN .dual irr maxDet (by omega) (le_intMax h1 hmax) Ts D hD, fun lam => ?_⟩
  have eonce : triangulateAndResidueOnce tri N' X .dual irr maxDet fuel tenPowerConst cones lam = polyOnce N' X .dual irr maxDet fuel tenPowerConst Ts lam := by
    unfold triangulateAndResidueOnce polyOnce
    rw [hT]
    generalize decompositionList ⟨N', Variant.dual.mode, maxDet, fun _ C => acceptPoly X tenPowerConst lam fuel C⟩ .dual irr Ts [] 0 = o
    match o with
    | .done true out md => rfl
    | .done false out md => rfl
    | .notIrrational => rfl
    | .abort => rfl
  rw [eonce]
  obtain ⟨a1, a2⟩ := c70_attempt N' hN X .dual irr (by intro h; cases h) maxDet h1 hmax fuel hfuel tenPowerConst Ts D hD S hS.nodup g hg hind lam
  by_cases hgen : GenericFor lam D
  · obtain ⟨t, h, -⟩ := a1 hgen
    exact Or.inl ⟨t, h⟩
  · exact Or.inr ⟨hgen, a2 hgen⟩

/-- **C76, the default substitution, total correctness.** If in all rounds up to round `T` all cones are triangulated, then the cones delivered by the decomposition in these
rounds have generic vectors; and if the vector tried in round `T` is one and there are never more than `5·10⁹` terms, the program returns the number of lattice points. -/
theorem c76_poly_total (N' : Ntl (m + 1)) (hN : N'.Ok) (hsv : ShortVectors N') (X : Smith.Xgcd) (irr : Cone (m + 1) → Fin (m + 1) → ℚ)
    (maxDet : ℤ) (h1 : 1 ≤ maxDet) (hmax : ((m + 1 : ℕ) : ℤ) * maxDet ≤ Piped.intMax) (fuel : ℕ) (hfuel : maxDet < fuel)
    (a : Fin N → Vec (m + 1)) (b : Fin N → ℚ) (S : List (Vec (m + 1))) (hS : LatticePoints a b S)
    (cones : List ((Fin (m + 1) → ℚ) × List (Vec (m + 1)))) (hvs : IsVertexList a b (cones.map (·.1))) (hr : NormalRays a b cones)
    (tris : ℕ → List (Vec (m + 1)) → ℕ → Except Fail (List (List (Vec (m + 1))) × ℕ)) (ht : ∀ t, TriangulationOk (tris t)) (T : ℕ)
    (hfew : ∀ t ≤ T, FewTerms N' irr maxDet (tris t) cones)
    (htot : ∀ t ≤ T, ∀ c ∈ cones, ∀ k, ∃ parts k', tris t c.2 k = .ok (parts, k') ∧ ∀ p ∈ parts, p.length = m + 1) :
    ∃ D : ℕ → List (Cone (m + 1)), (∀ t ≤ T, ∃ lam, GenericFor lam (D t)) ∧ ∀ (guesses : ℕ → Vec (m + 1)), GenericFor (guesses T) (D T) →
      ∀ tries, T < tries → triangulateAndResidue N' X .dual irr maxDet fuel cones tries tris guesses = .ok (S.length : ℤ) := by
  have hround : ∀ t, ∃ D : List (Cone (m + 1)), t ≤ T → (∃ lam, GenericFor lam D) ∧ ∀ lam : Vec (m + 1),
      (∃ q : ℤ, triangulateAndResidueOnce (tris t) N' X .dual irr maxDet fuel tenPowerConst cones lam = .ok q ∧ roundTotal tenPowerConst q = S.length) ∨
        ¬ GenericFor lam D ∧ triangulateAndResidueOnce (tris t) N' X .dual irr maxDet fuel tenPowerConst cones lam = .error .notGeneric := by
    intro t
    by_cases h : t ≤ T
    · obtain ⟨D, hD, hall⟩ := poly_round N' hN hsv X irr maxDet h1 hmax fuel hfuel a b S hS cones hvs hr (tris t) (ht t) (htot t h)
      refine ⟨D, fun _ => ⟨hD, fun lam => ?_⟩⟩
      rcases hall lam with ⟨q, hq⟩ | hq
      · exact Or.inl ⟨q, hq, poly_once N' hN hsv X irr maxDet h1 hmax fuel hfuel a b S hS cones hvs hr (tris t) (ht t) (hfew t h) lam q hq⟩
      · exact Or.inr hq
    · exact ⟨[], fun h' => absurd h' h⟩
  choose D hD using hround
  refine ⟨D, fun t h => (hD t h).1, ?_⟩
  clear ht htot hfew
  induction T generalizing tris D with
  | zero =>
    intro guesses hg tries htr
    obtain ⟨t, rfl⟩ : ∃ t, tries = t + 1 := ⟨tries - 1, by omega⟩
    unfold triangulateAndResidue
    rcases (hD 0 le_rfl).2 (guesses 0) with ⟨q, h, hn⟩ | ⟨h, -⟩
    · rw [h]
      dsimp only
      rw [hn]
    · exact absurd hg h
  | succ T ih =>
    intro guesses hg tries htr
    obtain ⟨t, rfl⟩ : ∃ t, tries = t + 1 := ⟨tries - 1, by omega⟩
    unfold triangulateAndResidue
    rcases (hD 0 (Nat.zero_le _)).2 (guesses 0) with ⟨q, h, hn⟩ | ⟨-, h⟩
    · rw [h]
      dsimp only
      rw [hn]
    · rw [h]
      dsimp only
      exact ih (fun i => tris (i + 1)) (fun i => D (i + 1)) (fun i hi => hD (i + 1) (by omega)) (fun i => guesses (i + 1)) hg t (by omega)

end Verif.Regular
