import Verif.TopK.Model
import Verif.Barvinok.Lines
import Verif.Barvinok.Props
import Verif.PolySubst.OfflineRun
import Verif.Digging.Pipeline

/-!
# The cones of one `f`
-/

namespace Verif.TopK

open Verif.Barvinok
open Verif.Barvinok.Spec

variable {m : ℕ}

theorem foldl_gcd_dvd (v : Fin m → ℤ) (l : List (Fin m)) (g : ℤ) :
    (l.foldl (fun (g : ℤ) i => (Int.gcd g (v i) : ℤ)) g ∣ g) ∧ ∀ i ∈ l, l.foldl (fun (g : ℤ) i => (Int.gcd g (v i) : ℤ)) g ∣ v i := by
  induction l generalizing g with
  | nil => simp
  | cons a l ih =>
    obtain ⟨h1, h2⟩ := ih (Int.gcd g (v a) : ℤ)
    simp only [List.foldl_cons]
    refine ⟨h1.trans (Int.gcd_dvd_left ..), fun i hi => ?_⟩
    rcases List.mem_cons.1 hi with rfl | hi
    · exact h1.trans (Int.gcd_dvd_right ..)
    · exact h2 i hi

theorem foldl_gcd_nonneg (v : Fin m → ℤ) (l : List (Fin m)) (g : ℤ) (hg : 0 ≤ g) :
    0 ≤ l.foldl (fun (g : ℤ) i => (Int.gcd g (v i) : ℤ)) g := by
  induction l generalizing g with
  | nil => simpa
  | cons a l ih => exact ih _ (by positivity)

theorem columnGcd_dvd (M : Mat (m + 1)) (neg : Bool) (j i : Fin (m + 1)) : columnGcd M neg j ∣ M i j := by
  have key : ((List.finRange m).map Fin.succ).foldl (fun (g : ℤ) i => (Int.gcd g (M i j) : ℤ)) (M 0 j) ∣ M i j := by
    obtain ⟨h1, h2⟩ := foldl_gcd_dvd (fun i => M i j) ((List.finRange m).map Fin.succ) (M 0 j)
    rcases Fin.eq_zero_or_eq_succ i with rfl | ⟨k, rfl⟩
    · exact h1
    · exact h2 _ (by simp)
  unfold columnGcd
  split
  · simpa using key
  · exact key

/-- The gcd of a column of the adjugate is not negative; with one row it is the only entry, 1. -/
theorem columnGcd_sign (B : Mat (m + 1)) (hB : B.det ≠ 0) (j : Fin (m + 1)) : 0 < B.det * columnGcd B.adjugate (B.det < 0) j := by
  have h0 : 0 ≤ ((List.finRange m).map Fin.succ).foldl (fun (g : ℤ) i => (Int.gcd g (B.adjugate i j) : ℤ)) (B.adjugate 0 j) := by
    cases m with
    | zero =>
      have : B.adjugate = 1 := Matrix.adjugate_fin_one B
      have hj : j = 0 := Fin.ext (by omega)
      simp [this, hj]
    | succ m =>
      rw [List.finRange_succ, List.map_cons, List.foldl_cons]
      exact foldl_gcd_nonneg _ _ _ (by positivity)
  have hne : columnGcd B.adjugate (B.det < 0) j ≠ 0 := by
    intro h
    have hz : ∀ i, B.adjugate i j = 0 := fun i => by
      have := columnGcd_dvd B.adjugate (B.det < 0) j i
      rw [h] at this
      exact zero_dvd_iff.1 this
    have h1 := congrFun (congrFun (B.mul_adjugate) j) j
    rw [Matrix.mul_apply] at h1
    simp only [hz, mul_zero, Finset.sum_const_zero, Matrix.smul_apply, Matrix.one_apply_eq, smul_eq_mul, mul_one] at h1
    exact hB h1.symm
  unfold columnGcd at hne ⊢
  by_cases hn : B.det < 0
  · simp only [hn, decide_true, if_true] at hne ⊢
    have : 0 < ((List.finRange m).map Fin.succ).foldl (fun (g : ℤ) i => (Int.gcd g (B.adjugate i j) : ℤ)) (B.adjugate 0 j) :=
      lt_of_le_of_ne h0 fun h => hne (by rw [← h]; rfl)
    nlinarith
  · simp only [hn, decide_false, Bool.false_eq_true, if_false] at hne ⊢
    exact mul_pos (lt_of_le_of_ne (not_lt.1 hn) (Ne.symm hB)) (lt_of_le_of_ne h0 (Ne.symm hne))

/-- `B · scaledInv B` is a diagonal matrix with positive entries. -/
theorem mul_scaledInv (B : Mat (m + 1)) (hB : B.det ≠ 0) :
    ∃ q : Fin (m + 1) → ℤ, (∀ j, 0 < q j) ∧ ∀ i j, ∑ k, B i k * scaledInv B k j = if i = j then q j else 0 := by
  have hsign := columnGcd_sign B hB
  have hval : ∀ k j, columnGcd B.adjugate (B.det < 0) j * scaledInv B k j = B.adjugate k j := by
    intro k j
    unfold scaledInv
    split
    · exact Int.mul_ediv_cancel' (columnGcd_dvd _ _ _ _)
    · rename_i h
      push Not at h
      rw [h, one_mul]
  have hsum : ∀ i j, columnGcd B.adjugate (B.det < 0) j * ∑ k, B i k * scaledInv B k j = if i = j then B.det else 0 := by
    intro i j
    rw [Finset.mul_sum]
    have h1 := congrFun (congrFun (B.mul_adjugate) i) j
    rw [Matrix.mul_apply] at h1
    rw [Finset.sum_congr rfl fun k _ => by rw [mul_left_comm, hval], h1]
    simp [Matrix.one_apply]
  refine ⟨fun j => ∑ k, B j k * scaledInv B k j, fun j => ?_, fun i j => ?_⟩
  · have h1 := hsum j j
    rw [if_pos rfl] at h1
    have h2 := hsign j
    by_contra h
    push Not at h
    have h3 : B.det * columnGcd B.adjugate (B.det < 0) j =
        columnGcd B.adjugate (B.det < 0) j * columnGcd B.adjugate (B.det < 0) j * ∑ k, B j k * scaledInv B k j := by
      linear_combination -(columnGcd B.adjugate (B.det < 0) j) * h1
    rw [h3] at h2
    exact absurd h2 (not_lt.2 (mul_nonpos_of_nonneg_of_nonpos (mul_self_nonneg _) h))
  · by_cases h : i = j
    · rw [if_pos h, h]
    · rw [if_neg h]
      have h1 := hsum i j
      rw [if_neg h] at h1
      have h2 := hsign j
      rcases mul_eq_zero.1 h1 with h3 | h3
      · rw [h3, mul_zero] at h2
        exact absurd h2 (lt_irrefl _)
      · exact h3

theorem columnCone_dual (B : Mat (m + 1)) (hB : B.det ≠ 0) :
    ∃ q : Fin (m + 1) → ℤ, (∀ j, 0 < q j) ∧
      ∀ i j, ∑ k, (columnCone (scaledInv B)).rays i k * (fun (j k : Fin (m + 1)) => -B j.rev k) j k = if i = j then -q j else 0 := by
  obtain ⟨q, hq, h⟩ := mul_scaledInv B hB
  refine ⟨fun j => q j.rev, fun j => hq _, fun i j => ?_⟩
  have h1 := h j.rev i.rev
  show ∑ k, scaledInv B k i.rev * -B j.rev k = _
  simp only [mul_neg, Finset.sum_neg_distrib]
  rw [Finset.sum_congr rfl fun k _ => mul_comm _ _, h1]
  by_cases hij : i = j
  · subst hij; simp
  · rw [if_neg hij, if_neg fun hh => hij (Fin.rev_injective hh).symm, neg_zero]

theorem columnCone_det (B : Mat (m + 1)) (hB : B.det ≠ 0) : (columnCone (scaledInv B)).rays.det ≠ 0 := by
  obtain ⟨q, hq, h⟩ := columnCone_dual B hB
  refine det_transpose_mul_ne (fun (j k : Fin (m + 1)) => -B j.rev k) _ q hq fun i j => ?_
  have := h j i
  simp only [mul_comm] at this ⊢
  rw [this]
  by_cases hij : i = j
  · subst hij; simp
  · rw [if_neg hij, if_neg (Ne.symm hij)]

theorem columnCone_cone (B : Mat (m + 1)) (hB : B.det ≠ 0) :
    cone (columnCone (scaledInv B)).rays = {y | ∀ i, 0 ≤ ∑ k, (B i k : ℝ) * y k} := by
  obtain ⟨q, hq, h⟩ := columnCone_dual B hB
  ext y
  rw [mem_cone_iff _ _ q (columnCone_det B hB) hq h, Set.mem_ofPred_eq]
  unfold dot
  have e : ∀ j : Fin (m + 1), (∑ k, ((-B j.rev k : ℤ) : ℝ) * y k) = -∑ k, (B j.rev k : ℝ) * y k := by
    intro j
    rw [← Finset.sum_neg_distrib]
    refine Finset.sum_congr rfl fun k _ => ?_
    push_cast
    ring
  constructor
  · intro hy i
    have := hy i.rev
    rw [e, Fin.rev_rev] at this
    linarith
  · intro hy j
    rw [e]
    have := hy j.rev
    linarith

/-- **The decomposition used by the program.** The signed sum of the cones is the orthant in the coordinates of the lattice basis, up to functions that are constant along lines,
and the cones are unimodular. -/
theorem findUnimodularCones_spec (ntl : Ntl (m + 1)) (hN : ntl.Ok) (B : Mat (m + 1)) (hB : B.det ≠ 0) (L : List (Cone (m + 1)))
    (h : findUnimodularCones ntl (scaledInv B) = .ok L) :
    (∀ C ∈ L, IsUnit C.rays.det) ∧ ∃ gl ∈ lineFn (m + 1), ∀ y, (L.map fun C => C.coefficient * ind (cone C.rays) y).sum =
      ind {y | ∀ i, 0 ≤ ∑ k, (B i k : ℝ) * y k} y + gl y := by
  have hdet := columnCone_det B hB
  obtain ⟨F, d, hc, hpos, hdual, -, -⟩ := computeDetAndFacets_some (columnCone (scaledInv B)) rfl hdet
  have hF : F.det ≠ 0 := det_transpose_mul_ne _ F d hpos hdual
  have hz : dualizeCone (columnCone (scaledInv B)) = some (swapDual { columnCone (scaledInv B) with
        determinant := (columnCone (scaledInv B)).rays.det, facets := some F, facetDivisors := d,
        dualDeterminant := F.det } F) := by
    unfold dualizeCone
    have : (columnCone (scaledInv B)).facets = none := rfl
    rw [this]
    simp only [hc]
  unfold findUnimodularCones at h
  rw [hz] at h
  simp only at h
  split at h
  · cases h
  rename_i cones hdec
  cases h
  change PolySubst.decomposeCones ntl .dual (fun _ => 0) 1 [((0 : Fin (m + 1) → ℚ), [F])] = _ at hdec
  obtain ⟨D, hD, rfl⟩ := Digging.decomposeCones_delivered hdec
  refine ⟨fun C hC => ?_, ?_⟩
  · have := PolySubst.delivered_unimodular ntl hN .dual _ _ D hD C (List.mem_reverse.1 hC)
    exact Int.isUnit_iff.2 (by rcases abs_eq (by norm_num : (0:ℤ) ≤ 1) |>.1 this with h | h <;> simp [h])
  · unfold ExpSubst.delivered at hD
    split at hD
    swap
    · cases hD
    rename_i out md hrun
    cases hD
    simp only [ExpSubst.decompositionList, barvinokDecompositionSingle] at hrun
    obtain ⟨⟨D', hD', hwf, hco, -, hrays⟩, -⟩ := start_wf F hF (0 : Fin (m + 1) → ℚ)
    have hs : ∀ P : Params (m + 1), barvinokSingle P .dual (fun _ => 0) F 0 [] 0 = dfs P D' 0 [] 0 := by
      intro P
      unfold barvinokSingle
      rw [if_neg hF]
      simp only [hD']
    rw [hs] at hrun
    split at hrun
    · rename_i out' md' hr
      split at hr
      · rename_i out2 md2 hr2
        cases hr
        cases hrun
        obtain ⟨new, e1, -, gl, hgl, hid⟩ := dfs_exact_dual_lines _ hN rfl D' hwf 0 [] 0 hr2
        rw [List.nil_append] at e1
        subst e1
        refine ⟨gl, hgl, fun y => ?_⟩
        rw [List.map_reverse, List.sum_reverse, hid y, hco, one_mul]
        congr 2
        rw [← columnCone_cone B hB]
        ext y
        have hp : polar D'.rays = polar F := by
          rw [hrays]
          unfold polar
          rw [matrixGCD_cone F hF]
        rw [hp, mem_polar, mem_cone_iff _ F d hdet hpos hdual]
      · rename_i r hne
        exact absurd hr (hne _ _)
    · rename_i r hne
      exact absurd hrun (hne _ _)

end Verif.TopK
