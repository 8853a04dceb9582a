import Verif.Brion.Count
import Verif.Irrational.Depth
import Verif.Barvinok.Exists

/-!
# C65: the counting procedure ends

The assertion about short vectors (barvinok.cpp 341–346) never fails for dimension at most four by the contract of LLL, and in every dimension if the
basis starts with a shortest vector.  With that, the exception "not irrational" (count.cpp 702) is never thrown either, and the count ends with the
number of lattice points in all three variants, as soon as a generic vector is tried.
-/

namespace Verif.Brion

open Verif.Barvinok Verif.Barvinok.Spec Verif.ExpSubst Verif.Irrational

variable {n N m : ℕ}

/-! ### Short vectors -/

theorem shortVectors_dim_le_four [NeZero n] (hn : n ≤ 4) (N' : Ntl n) (hN : N'.Ok) (hR : N'.Reduces) : ShortVectors N' :=
  fun _ hC hd => c17_step_dim_le_four hn N' hN hR hC hd

theorem shortVectors_shortestRow [NeZero n] (N' : Ntl n) (hN : N'.Ok) (hS : N'.ShortestRow) : ShortVectors N' := by
  intro C hC hd
  obtain ⟨Z, hZ, -⟩ := c17_step_shortest N' hN hS hC hd
  rw [hZ]
  rfl

/-! ### The primal recursion either ends normally or reports a rational cone -/

theorem dfs_total_primal [NeZero n] (N' : Ntl n) (hs : ShortVectors N') (maxDet : ℤ) (h1 : 1 ≤ maxDet) : ∀ (D : ℕ) (C : Cone n),
    C.determinant.natAbs < D → Wf C → ∀ depth out md,
    (∃ out' md', dfs ⟨N', .primal, maxDet, fun _ _ => true⟩ C depth out md = .done true out' md') ∨
      dfs ⟨N', .primal, maxDet, fun _ _ => true⟩ C depth out md = .notIrrational := by
  intro D
  induction D with
  | zero => intro C h; omega
  | succ D ih =>
    intro C hCD hC depth out md
    rw [dfs]
    generalize (if depth > md then depth else md) = md'
    show (∃ out' md'', (if criterion .primal C = 0 then _ else _) = Outcome.done true out' md'') ∨ (if criterion .primal C = 0 then _ else _) = _
    by_cases g1 : criterion .primal C = 0
    · rw [if_pos g1]; exact Or.inl ⟨_, _, rfl⟩
    rw [if_neg g1]
    by_cases g2 : Mode.primal = .primal ∧ ¬ isConeIrrational C
    · rw [if_pos g2]; exact Or.inr rfl
    rw [if_neg g2]
    by_cases g3 : maxDet = 0 ∨ criterion .primal C ≤ maxDet
    · rw [if_pos g3]
      exact Or.inl ⟨_, _, rfl⟩
    rw [if_neg g3]
    have hdet : 1 < |C.determinant| := by
      by_contra hc
      apply g3
      right
      show |C.determinant| ≤ maxDet
      omega
    obtain ⟨Z, hZ⟩ := Option.isSome_iff_exists.1 (hs C hC hdet)
    have hstep : barvinokStep N' C = some (Z, childrenOf C Z) := by unfold barvinokStep; rw [hZ]
    split
    · rename_i h; rw [hstep] at h; cases h
    · rename_i Z' ch' h
      have he : (some (Z, childrenOf C Z) : Option (Vec n × (Fin n → Option (Cone n)))) = some (Z', ch') := hstep.symm.trans h
      cases he
      have key : ∀ (js : List (Fin n)), (∀ j ∈ js, detsOf C.rays Z j ≠ 0) → ∀ depth out md, (∃ out' md'',
          loop ⟨N', .primal, maxDet, fun _ _ => true⟩ C.determinant.natAbs (childrenOf C Z) (step_decreases h) js depth out md =
            .done true out' md'') ∨
          loop ⟨N', .primal, maxDet, fun _ _ => true⟩ C.determinant.natAbs (childrenOf C Z) (step_decreases h) js depth out md =
            .notIrrational := by
        intro js
        induction js with
        | nil => intro _ depth out md; rw [loop]; exact Or.inl ⟨_, _, rfl⟩
        | cons j js ihj =>
          intro hj depth out md
          rw [loop]
          obtain ⟨c, hc, hwf, -⟩ := childrenOf_some C Z j (hj j List.mem_cons_self)
          split
          · rename_i h'; rw [hc] at h'; cases h'
          · rename_i c' h'
            rw [hc] at h'
            cases h'
            rcases ih c (by have := step_decreases h j c hc; omega) hwf depth out md with ⟨o1, m1, e1⟩ | e1
            · rw [e1]
              exact ihj (fun j' hj' => hj j' (List.mem_cons_of_mem _ hj')) depth o1 m1
            · rw [e1]
              exact Or.inr rfl
      by_cases g4 : Mode.primal = .primal ∧ ¬ ∀ i, ∀ c ∈ childrenOf C Z i, isConeIrrational c
      · rw [if_pos g4]; exact Or.inr rfl
      rw [if_neg g4]
      exact key _ (fun j hj => ((order_spec (detsOf C.rays Z)).2 j).1 hj) _ _ _

/-- If every simplex of every vertex cone is decomposed without exception, the whole list is. -/
theorem delivered_of_single [NeZero n] (N' : Ntl n) (v : Variant) (irr : Cone n → Fin n → ℚ) (maxDet : ℤ)
    (cones : List ((Fin n → ℚ) × List (Mat n)))
    (h : ∀ c ∈ cones, ∀ B ∈ c.2, ∀ out md, ∃ out' md',
      barvinokSingle ⟨N', v.mode, maxDet, fun _ _ => true⟩ v irr B c.1 out md = .done true out' md') :
    ∃ D, delivered N' v irr maxDet cones = some D := by
  have list : ∀ (T : List (Mat n)) vertex, (∀ B ∈ T, ∀ out md, ∃ out' md',
      barvinokSingle ⟨N', v.mode, maxDet, fun _ _ => true⟩ v irr B vertex out md = .done true out' md') → ∀ out md,
      ∃ out' md', barvinokDecompositionSingle ⟨N', v.mode, maxDet, fun _ _ => true⟩ v irr vertex T out md = .done true out' md' := by
    intro T vertex
    induction T with
    | nil => intro _ out md; exact ⟨_, _, rfl⟩
    | cons B T ih =>
      intro hT out md
      obtain ⟨o1, m1, e1⟩ := hT B List.mem_cons_self out md
      unfold barvinokDecompositionSingle
      rw [e1]
      exact ih (fun B' h => hT B' (List.mem_cons_of_mem _ h)) o1 m1
  have all : ∀ (cs : List ((Fin n → ℚ) × List (Mat n))), (∀ c ∈ cs, ∀ B ∈ c.2, ∀ out md, ∃ out' md',
      barvinokSingle ⟨N', v.mode, maxDet, fun _ _ => true⟩ v irr B c.1 out md = .done true out' md') → ∀ out md,
      ∃ out' md', decompositionList ⟨N', v.mode, maxDet, fun _ _ => true⟩ v irr cs out md = .done true out' md' := by
    intro cs
    induction cs with
    | nil => intro _ out md; exact ⟨_, _, rfl⟩
    | cons c cs ih =>
      intro hcs out md
      obtain ⟨vertex, T⟩ := c
      obtain ⟨o1, m1, e1⟩ := list T vertex (hcs _ List.mem_cons_self) out md
      unfold decompositionList
      rw [e1]
      exact ih (fun c' h => hcs c' (List.mem_cons_of_mem _ h)) o1 m1
  obtain ⟨o, md, e⟩ := all cones h [] 0
  refine ⟨o, ?_⟩
  unfold delivered
  rw [e]

/-! ### The irrational primal variant -/

theorem single_irrationalPrimal [NeZero n] (N' : Ntl n) (hN : N'.Ok) (hS : N'.ShortestRow) (depth : Cone n → ℕ)
    (hd : ∀ C, Wf C → EstimateOk depth C) (maxDet : ℤ) (h1 : 1 ≤ maxDet) (B : Mat n) (hB : B.det ≠ 0) (vertex : Fin n → ℚ)
    (out : List (Cone n)) (md : ℕ) : ∃ out' md',
    barvinokSingle ⟨N', .primal, maxDet, fun _ _ => true⟩ .irrationalPrimal (irrVertex depth) B vertex out md = .done true out' md' := by
  unfold barvinokSingle
  rw [if_neg hB]
  obtain ⟨-, D0, h0, hwf, -, -, -⟩ := start_wf B hB vertex
  simp only [h0]
  obtain ⟨w, hw, -, -, -⟩ := c63_simplicial depth D0 hwf (Nat.pos_of_ne_zero (NeZero.ne n))
  have hirr : irrVertex depth D0 = w := by unfold irrVertex; rw [hw]; rfl
  rw [hirr]
  have hwf' := wf_vertex hwf w
  rcases dfs_total_primal N' (shortVectors_shortestRow N' hN hS) maxDet h1 _ _ (Nat.lt_succ_self _) hwf' 0 out md with h | h
  · exact h
  · exact absurd h (c64_no_exception ⟨N', .primal, maxDet, fun _ _ => true⟩ hN rfl h1 depth D0 _ hwf hw (hd D0 hwf)
      (goodSteps_of_shortestRow ⟨N', .primal, maxDet, fun _ _ => true⟩ hN hS _ hwf') 0 out md)

/-! ### The irrational all-primal variant -/

theorem natAbs_det_matrixGCD (B : Mat n) : (matrixGCD B).det.natAbs ≤ B.det.natAbs := by
  have h : B = Matrix.diagonal (fun i => rowGcd (B i)) * matrixGCD B := by
    ext i j
    rw [Matrix.diagonal_mul]
    exact (matrixGCD_mul B i j).symm
  rcases eq_or_ne B.det 0 with h0 | h0
  · rw [h0]
    have h2 := congrArg Matrix.det h
    rw [Matrix.det_mul, h0, Matrix.det_diagonal] at h2
    rcases mul_eq_zero.1 h2.symm with h3 | h3
    · obtain ⟨i, -, hi⟩ := Finset.prod_eq_zero_iff.1 h3
      have hz : ∀ j, matrixGCD B i j = 0 := by
        intro j
        have : B i j = 0 := by rw [← matrixGCD_mul B i j, hi, zero_mul]
        unfold matrixGCD
        rw [if_neg (not_not.2 this), this]
      rw [Matrix.det_eq_zero_of_row_eq_zero i hz]
    · rw [h3]
  · have h2 := congrArg Matrix.det h
    rw [Matrix.det_mul] at h2
    have h3 : (matrixGCD B).det ∣ B.det := ⟨_, h2.trans (mul_comm _ _)⟩
    exact Nat.le_of_dvd (Int.natAbs_pos.2 h0) (Int.natAbs_dvd_natAbs.2 h3)

theorem abs_matrixGCD_le (B : Mat n) (i j : Fin n) : |matrixGCD B i j| ≤ |B i j| := by
  rcases eq_or_ne (B i j) 0 with h0 | h0
  · unfold matrixGCD
    rw [if_neg (not_not.2 h0)]
  · have h := matrixGCD_mul B i j
    have : matrixGCD B i j ∣ B i j := ⟨_, h.symm.trans (mul_comm _ _)⟩
    rw [Int.abs_eq_natAbs, Int.abs_eq_natAbs]
    exact_mod_cast Nat.le_of_dvd (Int.natAbs_pos.2 h0) (Int.natAbs_dvd_natAbs.2 this)

theorem single_allPrimal [NeZero n] (N' : Ntl n) (hN : N'.Ok) (hS : N'.ShortestRow) (irr : Cone n → Fin n → ℚ)
    (lp : Solver n) (hlp : SolverOk lp) (depth : ℕ) (rays F : List (Vec n)) (hest : EstimateGeneralOk depth rays)
    (hF : F ≠ []) (h0 : ∀ f ∈ F, f ≠ 0) (v u : Fin n → ℚ) (hu : ∀ f ∈ F, 0 < dotQ f u) (w : Fin n → ℚ)
    (hw : irrationalizeGeneral lp depth rays F v = some w) (maxDet : ℤ) (h1 : 1 ≤ maxDet) (B : Mat n) (hB : B.det ≠ 0)
    (hr : ∀ i, B i ∈ rays) (out : List (Cone n)) (md : ℕ) : ∃ out' md',
    barvinokSingle ⟨N', .primal, maxDet, fun _ _ => true⟩ .irrationalAllPrimal irr B w out md = .done true out' md' := by
  unfold barvinokSingle
  rw [if_neg hB]
  obtain ⟨⟨D0, hd0, hwf, -, -, -⟩, -⟩ := start_wf B hB w
  simp only [hd0]
  rcases dfs_total_primal N' (shortVectors_shortestRow N' hN hS) maxDet h1 _ _ (Nat.lt_succ_self _) hwf 0 out md with h | h
  · exact h
  · refine absurd h (c64_general_no_exception ⟨N', .primal, maxDet, fun _ _ => true⟩ hN rfl h1 lp hlp depth rays F hF h0 v u hu w hw hest
      _ D0 (fun i j => ?_) ?_ rfl hd0 (goodSteps_of_shortestRow ⟨N', .primal, maxDet, fun _ _ => true⟩ hN hS _ hwf) 0 out md)
    · exact (abs_matrixGCD_le B i j).trans (le_maxCoord rays (B i) (hr i) j)
    · exact (natAbs_det_matrixGCD B).trans (det_le_estimate rays B hr)

theorem moved_spec (lp : Solver n) (depth : VertexCone n → ℕ) :
    ∀ (cones : List (VertexCone n)) (out : List ((Fin n → ℚ) × List (Mat n))),
      irrationalizeCones lp depth cones = some out →
      ∀ c ∈ out, ∃ C ∈ cones, c.2 = C.simplices ∧ irrationalizeGeneral lp (depth C) C.rays C.facets C.vertex = some c.1 := by
  intro cones
  induction cones with
  | nil => intro out h; cases h; simp
  | cons C L ih =>
    intro out h
    unfold irrationalizeCones at h
    split at h
    · cases h
    · rename_i w hw
      split at h
      · cases h
      · rename_i out' ho
        cases h
        intro c hc
        rcases List.mem_cons.1 hc with rfl | hc
        · exact ⟨C, List.mem_cons_self, rfl, hw⟩
        · obtain ⟨C', hC', h1, h2⟩ := ih out' ho c hc
          exact ⟨C', List.mem_cons_of_mem _ hC', h1, h2⟩

/-! ### Total correctness -/

/-- **C65, total correctness in dual mode, dimension at most four.** No hypothesis on the search for short vectors: NTL's LLL keeps its documented
contract (a unimodular transformation to a reduced basis).  Then the count ends with the number of lattice points of the polytope in the first
round in which a generic vector is tried, and generic vectors exist. -/
theorem c65_total_dual_dim_le_four (hm : m + 1 ≤ 4) (N' : Ntl (m + 1)) (hN : N'.Ok) (hR : N'.Reduces) (X : Smith.Xgcd)
    (irr : Cone (m + 1) → Fin (m + 1) → ℚ) (maxDet : ℤ) (h1 : 1 ≤ maxDet) (hmax : maxDet ≤ Piped.intMax) (fuel : ℕ) (hfuel : maxDet < fuel)
    (a : Fin N → Vec (m + 1)) (b : Fin N → ℚ) (S : List (Vec (m + 1))) (hS : LatticePoints a b S)
    (cones : List ((Fin (m + 1) → ℚ) × List (Mat (m + 1)))) (hvs : IsVertexList a b (cones.map (·.1)))
    (hT : ∀ c ∈ cones, Triangulation c.2 (normal a b c.1)) :
    ∃ D : List (Cone (m + 1)), (∃ lam, GenericFor lam D) ∧ ∀ (t : ℕ) (guesses : ℕ → Vec (m + 1)),
      (∀ s < t, ¬ GenericFor (guesses s) D) → GenericFor (guesses t) D → ∀ tries, t < tries →
      decomposeAndCount N' X .dual irr maxDet fuel cones tries guesses = .ok (S.length : ℤ) :=
  c65_total_dual N' hN (shortVectors_dim_le_four hm N' hN hR) X irr maxDet h1 hmax fuel hfuel a b S hS cones hvs hT

/-- **C65, total correctness in dual mode, every dimension,** if the reduced bases start with a shortest vector (maximum norm). -/
theorem c65_total_dual_shortest (N' : Ntl (m + 1)) (hN : N'.Ok) (hR : N'.ShortestRow) (X : Smith.Xgcd)
    (irr : Cone (m + 1) → Fin (m + 1) → ℚ) (maxDet : ℤ) (h1 : 1 ≤ maxDet) (hmax : maxDet ≤ Piped.intMax) (fuel : ℕ) (hfuel : maxDet < fuel)
    (a : Fin N → Vec (m + 1)) (b : Fin N → ℚ) (S : List (Vec (m + 1))) (hS : LatticePoints a b S)
    (cones : List ((Fin (m + 1) → ℚ) × List (Mat (m + 1)))) (hvs : IsVertexList a b (cones.map (·.1)))
    (hT : ∀ c ∈ cones, Triangulation c.2 (normal a b c.1)) :
    ∃ D : List (Cone (m + 1)), (∃ lam, GenericFor lam D) ∧ ∀ (t : ℕ) (guesses : ℕ → Vec (m + 1)),
      (∀ s < t, ¬ GenericFor (guesses s) D) → GenericFor (guesses t) D → ∀ tries, t < tries →
      decomposeAndCount N' X .dual irr maxDet fuel cones tries guesses = .ok (S.length : ℤ) :=
  c65_total_dual N' hN (shortVectors_shortestRow N' hN hR) X irr maxDet h1 hmax fuel hfuel a b S hS cones hvs hT

/-- **C65, total correctness of the irrational primal variant.** With the depth estimate of the code in exact arithmetic and reduced bases that start
with a shortest vector, neither the assertion of the step nor the exception "not irrational" stops the program, and the count ends with the
number of lattice points in the first round in which a generic vector is tried. -/
theorem c65_total_irrationalPrimal (N' : Ntl (m + 1)) (hN : N'.Ok) (hR : N'.ShortestRow) (X : Smith.Xgcd) (depth : Cone (m + 1) → ℕ)
    (hd : ∀ C, Wf C → EstimateOk depth C) (maxDet : ℤ) (h1 : 1 ≤ maxDet) (hmax : maxDet ≤ Piped.intMax) (fuel : ℕ) (hfuel : maxDet < fuel)
    (a : Fin N → Vec (m + 1)) (b : Fin N → ℚ) (S : List (Vec (m + 1))) (hS : LatticePoints a b S)
    (cones : List ((Fin (m + 1) → ℚ) × List (Mat (m + 1)))) (hvs : IsVertexList a b (cones.map (·.1)))
    (hT : ∀ c ∈ cones, Triangulation c.2 (normal a b c.1)) :
    ∃ D : List (Cone (m + 1)), (∃ lam, GenericFor lam D) ∧ ∀ (t : ℕ) (guesses : ℕ → Vec (m + 1)),
      (∀ s < t, ¬ GenericFor (guesses s) D) → GenericFor (guesses t) D → ∀ tries, t < tries →
      decomposeAndCount N' X .irrationalPrimal (irrVertex depth) maxDet fuel cones tries guesses = .ok (S.length : ℤ) := by
  have h0 : maxDet ≠ 0 := by omega
  obtain ⟨D, hD⟩ := delivered_of_single N' .irrationalPrimal (irrVertex depth) maxDet cones
    fun c hc B hB out md => single_irrationalPrimal N' hN hR depth hd maxDet h1 B ((hT c hc).simplicial B hB) c.1 out md
  obtain ⟨g, hg, hind⟩ := dual_indicators a b cones hvs hT S hS .irrationalPrimal (by decide)
  refine ⟨D, c42_generic_vector_exists N' hN .irrationalPrimal _ maxDet h0 hmax cones D hD, fun t guesses hbad hgood tries ht => ?_⟩
  refine c42_total N' hN X .irrationalPrimal _ (fun _ C z hC => ?_) maxDet h0 hmax fuel hfuel cones D hD S hS.nodup g hg hind t guesses
    hbad hgood tries ht
  obtain ⟨w, hw, hsame, -⟩ := c63_simplicial depth C hC (Nat.succ_pos m)
  have : irrVertex depth C = w := by unfold irrVertex; rw [hw]; rfl
  rw [this]
  exact hsame z

/-- **C65, total correctness of the irrational all-primal variant.** -/
theorem c65_total_irrationalAllPrimal (N' : Ntl (m + 1)) (hN : N'.Ok) (hR : N'.ShortestRow) (X : Smith.Xgcd)
    (irr : Cone (m + 1) → Fin (m + 1) → ℚ) (lp : Solver (m + 1)) (hlp : SolverOk lp) (depth : VertexCone (m + 1) → ℕ)
    (hd : ∀ C, EstimateGeneralOk (depth C) C.rays)
    (maxDet : ℤ) (h1 : 1 ≤ maxDet) (hmax : maxDet ≤ Piped.intMax) (fuel : ℕ) (hfuel : maxDet < fuel)
    (a : Fin N → Vec (m + 1)) (b : Fin N → ℚ) (S : List (Vec (m + 1))) (hS : LatticePoints a b S)
    (cones : List (VertexCone (m + 1))) (hvs : IsVertexList a b (cones.map (·.vertex))) (hC : ∀ C ∈ cones, TangentCone a b C) :
    ∃ moved, irrationalizeCones lp depth cones = some moved ∧
      ∃ D : List (Cone (m + 1)), (∃ lam, GenericFor lam D) ∧ ∀ (t : ℕ) (guesses : ℕ → Vec (m + 1)),
        (∀ s < t, ¬ GenericFor (guesses s) D) → GenericFor (guesses t) D → ∀ tries, t < tries →
        decomposeAndCount N' X .irrationalAllPrimal irr maxDet fuel moved tries guesses = .ok (S.length : ℤ) := by
  have h0 : maxDet ≠ 0 := by omega
  have hd1 : ∀ C, 1 ≤ depth C := by
    intro C
    obtain ⟨t, ht, -⟩ := hd C
    omega
  obtain ⟨moved, hm, hs⟩ := allPrimal_cones a b lp hlp depth hd1 cones hC
  obtain ⟨D, hD⟩ := delivered_of_single N' .irrationalAllPrimal irr maxDet moved (by
    intro c hc B hB out md
    obtain ⟨C, hCm, hsim, hw⟩ := moved_spec lp depth cones moved hm c hc
    have ht := hC C hCm
    obtain ⟨u, hu⟩ := inner_point a b C ht
    rw [hsim] at hB
    exact single_allPrimal N' hN hR irr lp hlp (depth C) C.rays C.facets (hd C) ht.facets_ne ht.facet_ne C.vertex u hu c.1 hw maxDet h1 B
      (ht.triangulated.simplicial B hB) (ht.rays B hB) out md)
  refine ⟨moved, hm, D, c42_generic_vector_exists N' hN .irrationalAllPrimal _ maxDet h0 hmax moved D hD,
    fun t guesses hbad hgood tries ht => ?_⟩
  obtain ⟨g, hg, hv⟩ := vertex_sum a b _ hvs S hS
  refine c42_total N' hN X .irrationalAllPrimal irr (by intro h; cases h) maxDet h0 hmax fuel hfuel moved D hD S hS.nodup g hg
    (fun z => ?_) t guesses hbad hgood tries ht
  rw [← hv z, List.map_map]
  exact congrArg _ (hs z)

/-! ### The hypotheses are satisfiable -/

/-- Depths that satisfy the specification of the estimate exist for all cones. -/
theorem estimate_satisfiable : (∃ depth : Cone n → ℕ, ∀ C, EstimateOk depth C) ∧
    ∃ depth : VertexCone n → ℕ, ∀ C, EstimateGeneralOk (depth C) C.rays := by
  have key : ∀ s : ℕ, ∃ t, s * (n - 1) ^ t ≤ n ^ t := by
    intro s
    rcases Nat.eq_zero_or_pos n with rfl | hn
    · exact ⟨s + 1, by simp⟩
    obtain ⟨k, rfl⟩ : ∃ k, n = k + 1 := ⟨n - 1, by omega⟩
    rcases Nat.eq_zero_or_pos k with rfl | hk
    · exact ⟨1, by simp⟩
    refine ⟨k * s, ?_⟩
    rw [Nat.add_sub_cancel, pow_mul, pow_mul]
    have h1 : 2 * k ^ k ≤ (k + 1) ^ k := by
      have := one_add_mul_le_pow (R := ℚ) (a := 1 / k) (le_trans (by norm_num) (by positivity : (0 : ℚ) ≤ 1 / k)) k
      have hk0 : (k : ℚ) ≠ 0 := by positivity
      rw [mul_one_div_cancel hk0] at this
      have h2 : ((1 + 1 / k : ℚ)) ^ k = (k + 1) ^ k / k ^ k := by
        rw [← div_pow]; congr 1; field_simp
      rw [h2, le_div_iff₀ (by positivity)] at this
      have h3 : (2 : ℚ) * k ^ k ≤ (k + 1) ^ k := by linarith
      exact_mod_cast h3
    calc s * (k ^ k) ^ s ≤ 2 ^ s * (k ^ k) ^ s := Nat.mul_le_mul_right _ (Nat.lt_two_pow_self).le
      _ = (2 * k ^ k) ^ s := (mul_pow _ _ _).symm
      _ ≤ ((k + 1) ^ k) ^ s := Nat.pow_le_pow_left h1 _
  constructor
  · exact ⟨fun C => 1 + (key (Nat.size C.determinant.natAbs)).choose, fun C => ⟨_, rfl, (key _).choose_spec⟩⟩
  · exact ⟨fun C => 1 + (key (Nat.size (detEstimate C.rays).natAbs)).choose, fun C => ⟨_, rfl, (key _).choose_spec⟩⟩

end Verif.Brion
