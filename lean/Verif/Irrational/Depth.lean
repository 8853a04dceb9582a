import Verif.Irrational.Recursion
import Verif.Barvinok.Short
import Mathlib.Analysis.InnerProductSpace.Orientation

/-!
# Depth of the primal recursion for cones that are moved before triangulation

`irrationalizeCones` moves the vertex of a cone of any shape (count.cpp 417–461), whose determinant is not known; the number of bits added
comes from an estimate of the determinants of the simplices by the longest ray (Irrational.cpp 217–239).
-/

namespace Verif.Irrational

open Verif.Barvinok Verif.Barvinok.Spec

variable {n : ℕ}

/-! ### Hadamard's inequality -/

theorem hadamard (A : Mat n) : A.det ^ 2 ≤ ∏ i, ∑ k, A i k ^ 2 := by
  classical
  let v : Fin n → EuclideanSpace ℝ (Fin n) := fun i => WithLp.toLp 2 fun k => (A i k : ℝ)
  let b := EuclideanSpace.basisFun (Fin n) ℝ
  have : Fact (Module.finrank ℝ (EuclideanSpace ℝ (Fin n)) = n) := ⟨by simp⟩
  have h1 := b.toBasis.orientation.abs_volumeForm_apply_le v
  rw [b.toBasis.orientation.volumeForm_robust b rfl] at h1
  have h2 : b.toBasis.det v = ((A.det : ℤ) : ℝ) := by
    rw [Module.Basis.det_apply, Int.cast_det, ← Matrix.det_transpose]
    congr 1
  rw [h2] at h1
  have h3 : (|((A.det : ℤ) : ℝ)|) ^ 2 ≤ (∏ i, ‖v i‖) ^ 2 := pow_le_pow_left₀ (abs_nonneg _) h1 2
  rw [sq_abs, ← Finset.prod_pow] at h3
  have h4 : ∀ i, ‖v i‖ ^ 2 = ∑ k, ((A i k : ℤ) : ℝ) ^ 2 := by
    intro i
    rw [EuclideanSpace.norm_sq_eq]
    simp [v]
  simp only [h4] at h3
  exact_mod_cast h3

/-! ### The estimate -/

/-- `max_norm_square` in `estimate_barvinok_depth` (Irrational.cpp 221–230). -/
def maxNormSquare (rays : List (Vec n)) : ℤ :=
  rays.foldl (fun m r => if ∑ j, r j * r j > m then ∑ j, r j * r j else m) 0

/-- `det_estimate` when the determinant is not known (Irrational.cpp 231): `power(max_norm_square, (numOfVars + 1) / 2)`. -/
def detEstimate (rays : List (Vec n)) : ℤ := maxNormSquare rays ^ ((n + 1) / 2)

/-- Specification of `estimate_barvinok_depth` (Irrational.cpp 217-239) for such cones, in exact arithmetic: the value
`1 + ⌈log(NumBits det_estimate) / log(1 + 1/(n-1))⌉` is `1 + t` with `(n/(n-1))^t ≥ NumBits det_estimate`. -/
def EstimateGeneralOk (depth : ℕ) (rays : List (Vec n)) : Prop :=
  ∃ t, depth = 1 + t ∧ Nat.size (detEstimate rays).natAbs * (n - 1) ^ t ≤ n ^ t

theorem maxNormSquare_spec (rays : List (Vec n)) : 0 ≤ maxNormSquare rays ∧ ∀ r ∈ rays, ∑ j, r j * r j ≤ maxNormSquare rays := by
  unfold maxNormSquare
  have key : ∀ (l : List (Vec n)) (m : ℤ), m ≤ l.foldl (fun m r => if ∑ j, r j * r j > m then ∑ j, r j * r j else m) m ∧
      ∀ r ∈ l, ∑ j, r j * r j ≤ l.foldl (fun m r => if ∑ j, r j * r j > m then ∑ j, r j * r j else m) m := by
    intro l
    induction l with
    | nil => intro m; simp
    | cons a l ih =>
      intro m
      rw [List.foldl_cons]
      obtain ⟨h1, h2⟩ := ih (if ∑ j, a j * a j > m then ∑ j, a j * a j else m)
      refine ⟨le_trans (by split_ifs <;> omega) h1, fun r hr => ?_⟩
      rcases List.mem_cons.1 hr with rfl | hr
      · exact le_trans (by split_ifs <;> omega) h1
      · exact h2 r hr
  exact key rays 0

/-- The estimate bounds the determinant of every simplex of a triangulation without new rays. -/
theorem det_le_estimate (rays : List (Vec n)) (A : Mat n) (hA : ∀ i, A i ∈ rays) : A.det.natAbs ≤ (detEstimate rays).natAbs := by
  obtain ⟨h0, hM⟩ := maxNormSquare_spec rays
  set M := maxNormSquare rays with hMdef
  have h1 : A.det ^ 2 ≤ M ^ n := by
    refine (hadamard A).trans ?_
    calc ∏ i, ∑ k, A i k ^ 2 ≤ ∏ _i : Fin n, M := by
          refine Finset.prod_le_prod (fun i _ => Finset.sum_nonneg fun k _ => sq_nonneg _) fun i _ => ?_
          have := hM (A i) (hA i)
          simpa only [sq] using this
      _ = M ^ n := by simp
  have h2 : A.det ^ 2 ≤ (detEstimate rays) ^ 2 := by
    unfold detEstimate
    rw [← hMdef, ← pow_mul]
    rcases h0.eq_or_lt with e | e
    · rcases Nat.eq_zero_or_pos n with hn | hn
      · subst hn; simp
      · rw [← e] at h1 ⊢
        rw [zero_pow hn.ne'] at h1
        rw [zero_pow (by omega)]
        exact h1
    · refine h1.trans (pow_le_pow_right₀ (by omega) (by omega))
  have h3 := sq_le_sq.1 h2
  rw [Int.abs_eq_natAbs, Int.abs_eq_natAbs] at h3
  exact_mod_cast h3

/-! ### Irrationality below the estimate -/

/-- **C64, cones moved before triangulation.** Every cone which the recursion meets below the estimated depth, starting from any simplex
whose rays are among the rays of the cone (or shorter), passes the irrationality check. -/
theorem c64_general_below_estimate [NeZero n] (P : Params n) (hP : P.ntl.Ok) (lp : Solver n) (hlp : SolverOk lp) (depth : ℕ)
    (rays F : List (Vec n)) (hF : F ≠ []) (h0 : ∀ f ∈ F, f ≠ 0) (v u : Fin n → ℚ) (hu : ∀ f ∈ F, 0 < dotQ f u) (w : Fin n → ℚ)
    (hw : irrationalizeGeneral lp depth rays F v = some w) (C C' : Cone n) (hr : ∀ i j, |C.rays i j| ≤ maxCoord rays)
    (hCv : C.vertex = w) (hC' : computeDetAndFacets C = some C') (t : ℕ) (D : Cone n) (hreach : Reach P C' t D) (ht : t < depth) :
    isConeIrrational D := by
  obtain ⟨h1, h2, hst⟩ := generalCube_stable lp hlp F hF h0 v u hu
  obtain ⟨c', hc', hgood⟩ := newVertex_good F v _ h1 h2 hst
  obtain ⟨g1, -, -⟩ := hgood (bitsOfM n depth (maxCoord rays))
  have hwe : w = newVertex c' (bitsOfM n depth (maxCoord rays)) := by
    unfold irrationalizeGeneral at hw
    simp only [hc', g1] at hw
    exact (Option.some.inj hw).symm
  set k := bitsOfM n depth (maxCoord rays) with hk
  obtain ⟨hwf, hrays, -, hvC⟩ := wf_computeDetAndFacets hC'
  have hn : n ≠ 0 := NeZero.ne n
  have hn1 : (1 : ℤ) ≤ n := by exact_mod_cast Nat.one_le_iff_ne_zero.2 hn
  set X := maxCoord rays with hX
  have hX0 : 0 ≤ X := maxCoord_nonneg _
  have hsmall : SmallFacets D (((n : ℤ) ^ (t + 1) * X) ^ (n - 1)) := by
    obtain ⟨-, -, hcase⟩ := reach_spec P hP hreach X hwf (by rw [hrays]; exact hr)
    rcases hcase with ⟨rfl, rfl⟩ | h
    · have := facets_small C D hC' X hr
      simpa using this
    · exact h
  have hvD : D.vertex = w := by
    obtain ⟨-, hv, -⟩ := reach_spec P hP hreach X hwf (by rw [hrays]; exact hr)
    rw [hv, hvC, hCv]
  obtain ⟨G, hG, hsm⟩ := hsmall
  rw [isConeIrrational_iff D G hG, irrational_iff]
  intro f hf m
  obtain ⟨j, -, rfl⟩ := List.mem_map.1 hf
  rw [hvD, hwe]
  refine newVertex_generic _ h1 h2 c' hc' k (G j) (hsm j).1 (fun i => ((hsm j).2 i).trans ?_) m
  have s1 : ((n : ℤ) ^ (t + 1) * X) ^ (n - 1) ≤ ((n : ℤ) ^ depth * X) ^ (n - 1) := by
    apply pow_le_pow_left₀ (by positivity)
    exact mul_le_mul_of_nonneg_right (pow_le_pow_right₀ hn1 (by omega)) hX0
  have s2 : (0 : ℤ) ≤ ((n : ℤ) ^ depth * X) ^ (n - 1) := by positivity
  have s3 : (2 * ((n : ℤ) ^ depth * X) ^ (n - 1)).natAbs < 2 ^ k := by
    rw [hk]; exact Nat.lt_size_self _
  have s4 : (2 * ((n : ℤ) ^ depth * X) ^ (n - 1)) < 2 ^ k := by
    have : (((2 * ((n : ℤ) ^ depth * X) ^ (n - 1)).natAbs : ℕ) : ℤ) < ((2 ^ k : ℕ) : ℤ) := by exact_mod_cast s3
    rw [Int.natCast_natAbs, abs_of_nonneg (by positivity)] at this
    exact_mod_cast this
  linarith

/-- The recursion does not go deeper than the estimate allows, if its steps are good. -/
theorem not_deep [NeZero n] (P : Params n) (h1 : 1 ≤ P.maxDet) (C : Cone n) (hg : GoodSteps P C) (t s : ℕ)
    (hs : C.determinant.natAbs < 2 ^ s) (hsz : s * (n - 1) ^ t ≤ n ^ t) (D : Cone n) : ¬ Reach P C (1 + t) D := by
  intro hr
  obtain ⟨D', hr', hl⟩ := reach_prefix P hr t (by omega)
  have hdet := reach_det P hr' hg
  have hn : 0 < n := Nat.pos_of_ne_zero (NeZero.ne n)
  apply hl
  right
  suffices D'.determinant.natAbs ≤ 1 by
    rw [Int.abs_eq_natAbs]
    omega
  by_contra hc
  push Not at hc
  have a1 : 2 ^ n ^ t ≤ D'.determinant.natAbs ^ n ^ t := Nat.pow_le_pow_left hc _
  rcases Nat.eq_zero_or_pos ((n - 1) ^ t) with e | e
  · rw [e, pow_zero] at hdet
    have : 2 ≤ 2 ^ n ^ t := by
      calc 2 = 2 ^ 1 := rfl
        _ ≤ 2 ^ n ^ t := Nat.pow_le_pow_right (by norm_num) (Nat.one_le_pow _ _ hn)
    omega
  · have a2 : C.determinant.natAbs ^ (n - 1) ^ t < (2 ^ s) ^ (n - 1) ^ t := Nat.pow_lt_pow_left hs e.ne'
    rw [← pow_mul] at a2
    have a3 : 2 ^ (s * (n - 1) ^ t) ≤ 2 ^ n ^ t := Nat.pow_le_pow_right (by norm_num) hsz
    omega

/-- **C64, cones moved before triangulation.** With the estimate of the code (in exact arithmetic) the exception "not irrational" is never
thrown as long as the short vectors found are as good as Minkowski's theorem promises. -/
theorem c64_general_no_exception [NeZero n] (P : Params n) (hP : P.ntl.Ok) (hm : P.mode = .primal) (hmax : 1 ≤ P.maxDet)
    (lp : Solver n) (hlp : SolverOk lp) (depth : ℕ)
    (rays F : List (Vec n)) (hF : F ≠ []) (h0 : ∀ f ∈ F, f ≠ 0) (v u : Fin n → ℚ) (hu : ∀ f ∈ F, 0 < dotQ f u) (w : Fin n → ℚ)
    (hw : irrationalizeGeneral lp depth rays F v = some w) (hest : EstimateGeneralOk depth rays)
    (C C' : Cone n) (hr : ∀ i j, |C.rays i j| ≤ maxCoord rays) (hdet : C.rays.det.natAbs ≤ (detEstimate rays).natAbs)
    (hCv : C.vertex = w) (hC' : computeDetAndFacets C = some C') (hg : GoodSteps P C') (d : ℕ) (out : List (Cone n)) (md : ℕ) :
    dfs P C' d out md ≠ .notIrrational := by
  obtain ⟨t, ht, hsz⟩ := hest
  obtain ⟨hwf, hrays, -, -⟩ := wf_computeDetAndFacets hC'
  have hlt : C'.determinant.natAbs < 2 ^ Nat.size (detEstimate rays).natAbs := by
    rw [hwf.det_eq, hrays]
    exact hdet.trans_lt (Nat.lt_size_self _)
  refine dfs_ne P hm _ C' le_rfl (fun s D hreach => ?_) d out md
  refine c64_general_below_estimate P hP lp hlp depth rays F hF h0 v u hu w hw C C' hr hCv hC' s D hreach ?_
  by_contra hc
  push Not at hc
  rw [ht] at hc
  rcases hc.eq_or_lt with e | hlt'
  · exact not_deep P hmax C' hg t _ hlt hsz D (e ▸ hreach)
  · obtain ⟨D', h1', -⟩ := reach_prefix P hreach _ hlt'
    exact not_deep P hmax C' hg t _ hlt hsz D' h1'

/-- Lattice reduction that starts with a shortest vector makes good steps. -/
theorem goodSteps_of_shortestRow [NeZero n] (P : Params n) (hP : P.ntl.Ok) (hS : P.ntl.ShortestRow) (C : Cone n) (hC : Wf C) :
    GoodSteps P C := by
  intro t D hr Z ch i c hs hc
  obtain ⟨hD, -, -⟩ := reach_spec P hP hr (maxCoord (rowList C.rays)) hC
    (fun i j => le_maxCoord _ _ (List.mem_map.2 ⟨i, List.mem_finRange i, rfl⟩) j)
  have hlt := step_decreases hs i c hc
  obtain ⟨hch, -, -⟩ := barvinokStep_spec hP hD hs
  subst hch
  have hcd := childrenOf_eq hc
  have hdet : c.determinant = detsOf D.rays Z i := by
    rw [computeDetAndFacets_determinant hcd]
    rfl
  have hne : c.determinant ≠ 0 := by
    obtain ⟨hwf, -⟩ := wf_computeDetAndFacets hcd
    rw [hwf.det_eq]
    exact hwf.det_ne
  have h1 : 1 < |D.determinant| := by
    rw [Int.abs_eq_natAbs]
    have := Int.natAbs_pos.2 hne
    omega
  obtain ⟨Z', hZ', hb⟩ := c17_step_shortest P.ntl hP hS hD h1
  unfold barvinokStep at hs
  rw [hZ'] at hs
  simp only [Option.some.injEq, Prod.mk.injEq] at hs
  rw [hdet, ← hs.1]
  exact hb i

end Verif.Irrational
