import Verif.Barvinok.Avoid

/-!
# `--avoid-singularities`: from the triangulation to the consumer (C103)

Models `barvinok_Single` and `barvinokDecomposition_Single` (`code/latte/barvinok/barvinok.cpp`
lines 206–264, 562–582) for the option: the simplicial cones of a triangulation are decomposed one
by one.
-/

namespace Verif.Barvinok

open Spec Matrix

/-- `barvinok_Single` (barvinok.cpp lines 206–264), with the recursion for the option.  As in
`barvinokSingle`, `irr` is the vertex chosen by `irrationalizeCone`. -/
def singleAvoid {n : ℕ} [NeZero n] (P : Params n) (v : Variant) (irr : Cone n → Fin n → ℚ)
    (B : Mat n) (vertex : Fin n → ℚ) (out : List (Cone n)) (maxDepth : ℕ) : Outcome n :=
  if B.det = 0 then .abort
  else
    let C : Cone n :=
      { coefficient := 1, vertex := vertex, rays := matrixGCD B, determinant := B.det
        facets := none, facetDivisors := 0, dualDeterminant := 0 }
    match v with
    | .dual | .irrationalAllPrimal =>
      match computeDetAndFacets C with
      | none => .abort
      | some C => dfsAvoid P C 0 out maxDepth
    | .irrationalPrimal =>
      match dualizeCone C with
      | none => .abort
      | some C => dfsAvoid P { C with vertex := irr C } 0 out maxDepth

/-- `barvinokDecomposition_Single` (barvinok.cpp lines 562–582), after triangulation. -/
def decompositionAvoid {n : ℕ} [NeZero n] (P : Params n) (v : Variant)
    (irr : Cone n → Fin n → ℚ) (vertex : Fin n → ℚ) :
    List (Mat n) → List (Cone n) → ℕ → Outcome n
  | [], out, maxDepth => .done true out maxDepth
  | B :: Bs, out, maxDepth =>
    match singleAvoid P v irr B vertex out maxDepth with
    | .done true out maxDepth => decompositionAvoid P v irr vertex Bs out maxDepth
    | r => r

/-- What every cone handed to the consumer satisfies: no ray (in dual mode: no facet normal) lies in
the subspace, and its index is within the bound asked for or at most 200000. -/
def Good {n : ℕ} [NeZero n] (P : Params n) (D : Cone n) : Prop :=
  D.determinant = D.rays.det ∧ D.determinant ≠ 0 ∧
  (P.maxDet ≠ 0 → |D.determinant| ≤ max P.maxDet 200000) ∧
  match P.mode with
  | .primal => ∀ i, D.rays i (lastIdx n) ≠ 0
  | .dual => ∃ F, D.facets = some F ∧ ∀ i, F i (lastIdx n) ≠ 0

theorem singleAvoid_good {n : ℕ} [NeZero n] (P : Params n) (hP : P.ntl.Ok) (v : Variant)
    (hv : v ≠ .irrationalPrimal) (irr : Cone n → Fin n → ℚ) (B : Mat n)
    (hB : ∀ i, B i (lastIdx n) ≠ 0) (vertex : Fin n → ℚ) (out : List (Cone n)) (md : ℕ) {ok : Bool}
    {out' : List (Cone n)} {md' : ℕ}
    (h : singleAvoid P v irr B vertex out md = .done ok out' md') :
    ∃ new, out' = out ++ new ∧ ∀ D ∈ new, D.vertex = vertex ∧ Good P D := by
  unfold singleAvoid at h
  split at h
  · cases h
  · rename_i hd
    obtain ⟨⟨D0, h0, hwf, -, hvx, hr⟩, -⟩ := start_wf B hd vertex
    have hrun : dfsAvoid P D0 0 out md = .done ok out' md' := by
      cases v with
      | dual => simp only [h0] at h; exact h
      | irrationalAllPrimal => simp only [h0] at h; exact h
      | irrationalPrimal => exact absurd rfl hv
    obtain ⟨-, new, h1, h2⟩ := c103_avoids P hP D0 hwf 0 out md hrun
    refine ⟨new, h1, fun D hD => ?_⟩
    obtain ⟨a, b, c, d, -, e⟩ := h2 D hD
    refine ⟨c.trans hvx, a, b, d, e fun i => ?_⟩
    rw [hr]
    intro hz
    have := matrixGCD_mul B i (lastIdx n)
    rw [hz, mul_zero] at this
    exact hB i this.symm

/-- **C103, a whole triangulation.**  If no ray of the simplicial cones of the triangulation lies in
the subspace, then whenever the decomposition returns, no ray (dual mode: no facet normal) of any
cone handed to the consumer does, and all indices are within the bound or at most 200000. -/
theorem c103_triangulation {n : ℕ} [NeZero n] (P : Params n) (hP : P.ntl.Ok) (v : Variant)
    (hv : v ≠ .irrationalPrimal) (irr : Cone n → Fin n → ℚ) (vertex : Fin n → ℚ)
    (T : List (Mat n)) (hT : ∀ B ∈ T, ∀ i, B i (lastIdx n) ≠ 0) (out : List (Cone n)) (md : ℕ)
    {ok : Bool} {out' : List (Cone n)} {md' : ℕ}
    (h : decompositionAvoid P v irr vertex T out md = .done ok out' md') :
    ∃ new, out' = out ++ new ∧ ∀ D ∈ new, D.vertex = vertex ∧ Good P D := by
  induction T generalizing out md with
  | nil =>
    unfold decompositionAvoid at h
    cases h
    exact ⟨[], by simp, by simp⟩
  | cons B Bs ih =>
    unfold decompositionAvoid at h
    split at h
    · rename_i o m hs
      obtain ⟨n1, rfl, h2⟩ := singleAvoid_good P hP v hv irr B (hT B List.mem_cons_self) vertex out md hs
      obtain ⟨n2, rfl, h4⟩ := ih (fun A hA => hT A (List.mem_cons_of_mem _ hA)) _ _ h
      refine ⟨n1 ++ n2, by simp, fun D hD => ?_⟩
      rcases List.mem_append.mp hD with hD | hD
      · exact h2 D hD
      · exact h4 D hD
    · exact singleAvoid_good P hP v hv irr B (hT B List.mem_cons_self) vertex out md h

/-- **C103, exactness for one simplicial cone**, given by any integral vectors on its rays, in the
all-primal variant. -/
theorem c103_single_exact {n : ℕ} [NeZero n] (P : Params n) (hP : P.ntl.Ok)
    (hm : P.mode = .primal) (irr : Cone n → Fin n → ℚ) (B : Mat n) (vertex : Fin n → ℚ)
    (out : List (Cone n)) (md : ℕ) {out' : List (Cone n)} {md' : ℕ}
    (h : singleAvoid P .irrationalAllPrimal irr B vertex out md = .done true out' md') :
    ∃ new, out' = out ++ new ∧
      ∀ p, ¬ OnFacetPlane B p → (∀ D ∈ new, ¬ OnFacetPlane D.rays p) →
        ind (cone B) p = (new.map fun D => D.coefficient * ind (cone D.rays) p).sum := by
  unfold singleAvoid at h
  split at h
  · cases h
  · rename_i hB
    obtain ⟨⟨D0, h0, hwf, hc, hv, hr⟩, -⟩ := start_wf B hB vertex
    simp only [h0] at h
    obtain ⟨new, h1, h3⟩ := c103_exact P hP D0 hwf _ _ _ h
    rw [hm] at h3
    refine ⟨new, h1, fun p hp hpn => ?_⟩
    have := h3 p ?_ hpn
    · rw [hc, one_mul, hr, matrixGCD_cone B hB] at this
      exact this
    · rw [hr]
      rintro ⟨a, ⟨i, hi⟩, rfl⟩
      apply hp
      refine ⟨fun i => a i / (rowGcd (B i) : ℝ), ⟨i, by show a i / _ = 0; rw [hi, zero_div]⟩, ?_⟩
      funext k
      unfold comb
      refine Finset.sum_congr rfl fun i _ => ?_
      have hg : ((rowGcd (B i) : ℤ) : ℝ) ≠ 0 := by exact_mod_cast rowGcd_ne B hB i
      have hmm : ((B i k : ℤ) : ℝ) = (rowGcd (B i) : ℝ) * (matrixGCD B i k : ℝ) := by
        exact_mod_cast (matrixGCD_mul B i k).symm
      rw [hmm]
      field_simp

/-! ## A complete run -/

theorem dfsAvoid_leaf {n : ℕ} [NeZero n] (P : Params n) (C : Cone n) (depth : ℕ) (out : List (Cone n))
    (md : ℕ) (hm : P.mode = .primal) (hirr : isConeIrrational C) (h0 : |C.determinant| ≠ 0)
    (h1 : |C.determinant| ≤ P.maxDet) :
    dfsAvoid P C depth out md =
      .done (P.accept out C) (out ++ [C]) (if depth > md then depth else md) := by
  have hc : criterion P.mode C = |C.determinant| := by rw [hm]; rfl
  rw [dfsAvoid]
  simp only [hc]
  rw [if_neg h0, if_neg (fun h => h.2 hirr), if_pos (Or.inr h1)]
  unfold deliver
  rw [hm]

/-- The hypotheses are met by a complete run: the cone with rays (0,1), (2,1) is decomposed into two
unimodular cones and the recursion returns 1. -/
theorem avRun : ∃ c0 c1, dfsAvoid exParams avCone 0 [] 0 = .done true [c0, c1] 1 ∧
    c0.rays = !![1, 1; 2, 1] ∧ c1.rays = !![0, 1; 1, 1] := by
  have hstep : avoidStep ntl2 avCone = .ok ![1, 1] (childrenOf avCone ![1, 1]) := c103_example.2.2.2.1
  have hd0 : detsOf avCone.rays ![1, 1] 0 = -1 := by decide +kernel
  have hd1 : detsOf avCone.rays ![1, 1] 1 = -1 := by decide +kernel
  obtain ⟨c0, hc0, -, hr0, -, hdet0, -⟩ := childrenOf_some avCone ![1, 1] 0 (by rw [hd0]; decide)
  obtain ⟨c1, hc1, -, hr1, -, hdet1, -⟩ := childrenOf_some avCone ![1, 1] 1 (by rw [hd1]; decide)
  have hirr : ∀ i, ∀ c ∈ childrenOf avCone ![1, 1] i, isConeIrrational c := by decide +kernel
  have hi0 := hirr 0 c0 hc0
  have hi1 := hirr 1 c1 hc1
  rw [hd0] at hdet0
  rw [hd1] at hdet1
  have hn : exParams.ntl = ntl2 := rfl
  refine ⟨c0, c1, ?_, ?_, ?_⟩
  · rw [dfsAvoid]
    rw [if_neg (by decide +kernel), if_neg (by decide +kernel), if_neg (by decide +kernel)]
    split
    · rename_i h
      rw [hn, hstep] at h; cases h
    · rename_i h
      rw [hn, hstep] at h; cases h
    · rename_i Z ch h
      have h' := h
      rw [hn, hstep] at h'
      cases h'
      rw [if_neg (fun hh => hh.2 hirr)]
      have hord : order (detsOf avCone.rays ![1, 1]) = [0, 1] := by decide +kernel
      rw [hord, loopAvoid]
      split
      · rename_i hn; rw [hc0] at hn; cases hn
      · rename_i c hc
        rw [hc0] at hc; cases hc
        rw [dfsAvoid_leaf exParams c0 _ _ _ rfl hi0 (by rw [hdet0]; decide)
          (by rw [hdet0]; decide)]
        show loopAvoid _ _ _ _ _ _ _ _ = _
        rw [loopAvoid]
        split
        · rename_i hn; rw [hc1] at hn; cases hn
        · rename_i c hc
          rw [hc1] at hc; cases hc
          rw [dfsAvoid_leaf exParams c1 _ _ _ rfl hi1 (by rw [hdet1]; decide)
            (by rw [hdet1]; decide)]
          show loopAvoid _ _ _ _ _ _ _ _ = _
          rw [loopAvoid]
          rfl
  · rw [hr0]; decide +kernel
  · rw [hr1]; decide +kernel

end Verif.Barvinok
