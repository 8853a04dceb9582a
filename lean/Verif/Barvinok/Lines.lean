import Verif.Barvinok.Props
import Verif.Barvinok.Primitive
import Mathlib.LinearAlgebra.Matrix.ToLinearEquiv
import Mathlib.LinearAlgebra.Quotient.Basic
import Mathlib.Algebra.BigOperators.Ring.Finset

/-!
# Dual decomposition modulo cones with lines

In dual mode the recursion decomposes the polar of the cone one is interested in. The polars of the
pieces add up to that cone up to functions that are constant along a line, at *every* point, on
boundaries too.
-/

namespace Verif.Barvinok

open Spec Matrix

/-- **Specification.** `g` is constant along the lines in some non-zero integer direction. -/
def ConstAlongLine {n : ℕ} (g : (Fin n → ℝ) → ℤ) : Prop :=
  ∃ l : Vec n, l ≠ 0 ∧ ∀ (t : ℝ) y, g (y + fun k => t * (l k : ℝ)) = g y

/-- **Specification.** Integer combinations of functions constant along some rational line, such as
indicators of polyhedra containing a line. -/
def lineFn (n : ℕ) : Submodule ℤ ((Fin n → ℝ) → ℤ) :=
  Submodule.span ℤ {g | ConstAlongLine g}

/-- The polar cone of the cone of the rows of `A`. -/
def polar {n : ℕ} (A : Mat n) : Set (Fin n → ℝ) := {y | ∀ x ∈ cone A, ∑ k, x k * y k ≤ 0}

theorem mem_polar {n : ℕ} (A : Mat n) (y : Fin n → ℝ) : y ∈ polar A ↔ ∀ i, dot (A i) y ≤ 0 := by
  constructor
  · intro hy j
    have hmem : comb A (Pi.single j 1) ∈ cone A := by
      refine ⟨_, fun i => ?_, rfl⟩
      by_cases hij : i = j
      · subst hij; simp
      · simp [hij]
    have := hy _ hmem
    have he : comb A (Pi.single j 1) = fun k => (A j k : ℝ) := by
      funext k
      unfold comb
      rw [Finset.sum_eq_single j]
      · simp
      · intro i _ hij; simp [hij]
      · simp
    rw [he] at this
    exact this
  · rintro hy x ⟨a, ha, rfl⟩
    have : ∑ k, comb A a k * y k = ∑ i, a i * dot (A i) y := by
      unfold comb dot
      simp only [Finset.sum_mul, Finset.mul_sum]
      rw [Finset.sum_comm]
      refine Finset.sum_congr rfl fun i _ => Finset.sum_congr rfl fun k _ => by ring
    rw [this]
    exact Finset.sum_nonpos fun i _ => mul_nonpos_of_nonneg_of_nonpos (ha i) (hy i)

open scoped Classical in
/-- Indicator of a half-space. -/
noncomputable def half {n : ℕ} (v : Vec n) (y : Fin n → ℝ) : ℤ := if dot v y ≤ 0 then 1 else 0

theorem ind_polar {n : ℕ} (A : Mat n) (y : Fin n → ℝ) : ind (polar A) y = ∏ i, half (A i) y := by
  unfold ind
  by_cases h : y ∈ polar A
  · rw [if_pos h]
    symm
    apply Finset.prod_eq_one
    intro i _
    exact if_pos ((mem_polar A y).mp h i)
  · rw [if_neg h]
    rw [mem_polar] at h
    push Not at h
    obtain ⟨i, hi⟩ := h
    symm
    exact Finset.prod_eq_zero (Finset.mem_univ i) (if_neg (not_le.mpr hi))

theorem dot_add_line {n : ℕ} (v l : Vec n) (hl : ∑ k, v k * l k = 0) (t : ℝ) (y : Fin n → ℝ) :
    dot v (y + fun k => t * (l k : ℝ)) = dot v y := by
  unfold dot
  have h : ∑ k, (v k : ℝ) * (l k : ℝ) = 0 := by exact_mod_cast hl
  simp only [Pi.add_apply, mul_add, Finset.sum_add_distrib]
  have : ∑ k, (v k : ℝ) * (t * (l k : ℝ)) = t * ∑ k, (v k : ℝ) * (l k : ℝ) := by
    rw [Finset.mul_sum]
    exact Finset.sum_congr rfl fun k _ => by ring
  rw [this, h, mul_zero, add_zero]

/-- A function of the half-spaces of the rows of a singular matrix is constant along a line. -/
theorem constAlongLine_of_singular {n : ℕ} (M : Mat n) (hM : M.det = 0) (g : (Fin n → ℝ) → ℤ)
    (hg : ∀ y y', (∀ i, dot (M i) y = dot (M i) y') → g y = g y') : ConstAlongLine g := by
  obtain ⟨l, hl, h⟩ := Matrix.exists_mulVec_eq_zero_iff.mpr hM
  refine ⟨l, hl, fun t y => hg _ _ fun i => ?_⟩
  exact dot_add_line (M i) l (congrFun h i) t y

/-- Products of half-spaces of rows of `A` that leave out a row. -/
theorem prod_mem_lineFn {n : ℕ} (A : Mat n) (J : Finset (Fin n)) (i : Fin n) (hi : i ∉ J) (c : ℤ) :
    (fun y => c * ∏ j ∈ J, half (A j) y) ∈ lineFn n := by
  apply Submodule.subset_span
  rw [Set.mem_ofPred_eq]
  apply constAlongLine_of_singular (A.updateRow i 0)
  · rw [show (0 : Vec n) = (0 : ℤ) • (0 : Vec n) by simp, det_updateRow_smul, zero_mul]
  · intro y y' h
    congr 1
    refine Finset.prod_congr rfl fun j hj => ?_
    have hji : j ≠ i := by rintro rfl; exact hi hj
    have := h j
    rw [updateRow_ne hji] at this
    unfold half
    rw [this]

/-- Products of half-spaces of `Z` and of rows of `A` that leave out two rows. -/
theorem prod_mem_lineFn' {n : ℕ} (A : Mat n) (Z : Vec n) (J : Finset (Fin n)) (i i' : Fin n)
    (hii : i ≠ i') (hi : i ∉ J) (hi' : i' ∉ J) (c : ℤ) :
    (fun y => c * (half Z y * ∏ j ∈ J, half (A j) y)) ∈ lineFn n := by
  apply Submodule.subset_span
  rw [Set.mem_ofPred_eq]
  apply constAlongLine_of_singular ((A.updateRow i' Z).updateRow i 0)
  · rw [show (0 : Vec n) = (0 : ℤ) • (0 : Vec n) by simp, det_updateRow_smul, zero_mul]
  · intro y y' h
    have hZ : dot Z y = dot Z y' := by
      have := h i'
      rwa [updateRow_ne (Ne.symm hii), updateRow_self] at this
    congr 1
    refine congrArg₂ _ (by unfold half; rw [hZ]) (Finset.prod_congr rfl fun j hj => ?_)
    have hji : j ≠ i := by rintro rfl; exact hi hj
    have hji' : j ≠ i' := by rintro rfl; exact hi' hj
    have := h j
    rw [updateRow_ne hji, updateRow_ne hji'] at this
    unfold half
    rw [this]

theorem sum_powerset_mod {n : ℕ} {ι : Type*} [DecidableEq ι] (L : Submodule ℤ ((Fin n → ℝ) → ℤ))
    (N : Finset ι) (f : Finset ι → (Fin n → ℝ) → ℤ)
    (h : ∀ T ⊆ N, (∃ i ∈ N, ∃ j ∈ N, i ≠ j ∧ i ∉ T ∧ j ∉ T) → f T ∈ L) :
    ∑ T ∈ N.powerset, f T - f N - ∑ i ∈ N, f (N.erase i) ∈ L := by
  have hinj : Set.InjOn (fun i => N.erase i) (N : Set ι) := by
    intro i hi j hj hij
    by_contra hne
    have : i ∈ N.erase j := Finset.mem_erase.mpr ⟨hne, hi⟩
    rw [← (show N.erase i = N.erase j from hij)] at this
    exact Finset.notMem_erase i N this
  have h1 : ∑ i ∈ N, f (N.erase i) = ∑ T ∈ N.image fun i => N.erase i, f T := by
    rw [Finset.sum_image hinj]
  have hN : N ∉ N.image fun i => N.erase i := by
    intro hN
    obtain ⟨i, hi, he⟩ := Finset.mem_image.mp hN
    exact Finset.notMem_erase i N (by rw [show N.erase i = N from he]; exact hi)
  have h2 : f N + ∑ i ∈ N, f (N.erase i) =
      ∑ T ∈ insert N (N.image fun i => N.erase i), f T := by
    rw [Finset.sum_insert hN, h1]
  have hsub : insert N (N.image fun i => N.erase i) ⊆ N.powerset := by
    intro T hT
    rw [Finset.mem_powerset]
    rcases Finset.mem_insert.mp hT with rfl | hT
    · exact subset_rfl
    · obtain ⟨i, -, rfl⟩ := Finset.mem_image.mp hT
      exact Finset.erase_subset i N
  rw [sub_sub, h2, ← Finset.sum_sdiff hsub, add_sub_cancel_right]
  apply Submodule.sum_mem
  intro T hT
  rw [Finset.mem_sdiff, Finset.mem_powerset] at hT
  obtain ⟨hTN, hT⟩ := hT
  apply h T hTN
  have hne : T ≠ N := fun h => hT (h ▸ Finset.mem_insert_self _ _)
  obtain ⟨i, hi, hiT⟩ := Finset.exists_of_ssubset (Finset.ssubset_iff_subset_ne.mpr ⟨hTN, hne⟩)
  have hne' : T ≠ N.erase i := fun h =>
    hT (Finset.mem_insert_of_mem (Finset.mem_image.mpr ⟨i, hi, h.symm⟩))
  have hTe : T ⊆ N.erase i := fun x hx => Finset.mem_erase.mpr ⟨by rintro rfl; exact hiT hx, hTN hx⟩
  obtain ⟨j, hj, hjT⟩ := Finset.exists_of_ssubset (Finset.ssubset_iff_subset_ne.mpr ⟨hTe, hne'⟩)
  exact ⟨i, hi, j, (Finset.mem_erase.mp hj).2, (Finset.mem_erase.mp hj).1.symm, hiT, hjT⟩

/-- Expansion of a product of complements: in `c · ∏_{M} s · ∏_{N} (1 - s)` with a half-space `Z` as
further factor, only the terms leaving out at most one row matter. -/
theorem expand_Z {n : ℕ} (A : Mat n) (Z : Vec n) (N : Finset (Fin n)) :
    (fun y => half Z y * (∏ j ∈ Nᶜ, half (A j) y) * ∏ j ∈ N, (1 - half (A j) y) -
      (-1) ^ N.card * (half Z y * ∏ j, half (A j) y) +
      (-1) ^ N.card * ∑ i ∈ N, half Z y * ∏ j ∈ Finset.univ.erase i, half (A j) y) ∈ lineFn n := by
  set f : Finset (Fin n) → (Fin n → ℝ) → ℤ := fun T y =>
    (-1) ^ T.card * (half Z y * ∏ j ∈ Nᶜ ∪ T, half (A j) y) with hf
  have h := sum_powerset_mod (lineFn n) N f (by
    rintro T hT ⟨i, hi, j, hj, hij, hiT, hjT⟩
    exact prod_mem_lineFn' A Z (Nᶜ ∪ T) i j hij (by simp [hi, hiT]) (by simp [hj, hjT]) _)
  convert h using 1
  funext y
  simp only [Pi.sub_apply, Finset.sum_apply, hf]
  have e1 : ∏ j ∈ N, (1 - half (A j) y) =
      ∑ T ∈ N.powerset, (-1) ^ T.card * ∏ j ∈ T, half (A j) y := by
    have : ∀ j, (1 - half (A j) y) = -half (A j) y + 1 := fun j => by ring
    simp only [this]
    rw [Finset.prod_add]
    refine Finset.sum_congr rfl fun T _ => ?_
    rw [Finset.prod_const_one, mul_one, Finset.prod_neg]
  have e2 : half Z y * (∏ j ∈ Nᶜ, half (A j) y) * ∏ j ∈ N, (1 - half (A j) y) =
      ∑ T ∈ N.powerset, (-1) ^ T.card * (half Z y * ∏ j ∈ Nᶜ ∪ T, half (A j) y) := by
    rw [e1, Finset.mul_sum]
    refine Finset.sum_congr rfl fun T hT => ?_
    rw [Finset.prod_union (Finset.disjoint_left.mpr fun x hx hxT =>
      (Finset.mem_compl.mp hx) (Finset.mem_powerset.mp hT hxT))]
    ring
  have e3 : ∀ i ∈ N, (-1 : ℤ) ^ (N.erase i).card * (half Z y * ∏ j ∈ Nᶜ ∪ N.erase i, half (A j) y) =
      -((-1) ^ N.card * (half Z y * ∏ j ∈ Finset.univ.erase i, half (A j) y)) := by
    intro i hi
    have hset : Nᶜ ∪ N.erase i = Finset.univ.erase i := by
      ext x
      simp only [Finset.mem_union, Finset.mem_compl, Finset.mem_erase, Finset.mem_univ, and_true]
      constructor
      · rintro (h | h)
        · rintro rfl; exact h hi
        · exact h.1
      · intro h
        by_cases hx : x ∈ N
        · exact Or.inr ⟨h, hx⟩
        · exact Or.inl hx
    have hc : N.card = (N.erase i).card + 1 := (Finset.card_erase_add_one hi).symm
    rw [hset, hc, pow_succ]
    ring
  rw [e2, Finset.sum_congr rfl e3, Finset.sum_neg_distrib]
  have hu : Nᶜ ∪ N = Finset.univ := by ext x; simp [em']
  rw [hu, Finset.mul_sum]
  ring

/-- The same without the factor `Z`: only the full product matters. -/
theorem expand {n : ℕ} (A : Mat n) (N : Finset (Fin n)) :
    (fun y => (∏ j ∈ Nᶜ, half (A j) y) * ∏ j ∈ N, (1 - half (A j) y) -
      (-1) ^ N.card * ∏ j, half (A j) y) ∈ lineFn n := by
  have hsum : (fun y => (∏ j ∈ Nᶜ, half (A j) y) * ∏ j ∈ N, (1 - half (A j) y) -
      (-1) ^ N.card * ∏ j, half (A j) y) =
      ∑ T ∈ N.powerset.erase N, fun y => (-1) ^ T.card * ∏ j ∈ Nᶜ ∪ T, half (A j) y := by
    funext y
    rw [Finset.sum_apply]
    have e1 : ∏ j ∈ N, (1 - half (A j) y) =
        ∑ T ∈ N.powerset, (-1) ^ T.card * ∏ j ∈ T, half (A j) y := by
      have : ∀ j, (1 - half (A j) y) = -half (A j) y + 1 := fun j => by ring
      simp only [this]
      rw [Finset.prod_add]
      refine Finset.sum_congr rfl fun T _ => ?_
      rw [Finset.prod_const_one, mul_one, Finset.prod_neg]
    have e2 : (∏ j ∈ Nᶜ, half (A j) y) * ∏ j ∈ N, (1 - half (A j) y) =
        ∑ T ∈ N.powerset, (-1) ^ T.card * ∏ j ∈ Nᶜ ∪ T, half (A j) y := by
      rw [e1, Finset.mul_sum]
      refine Finset.sum_congr rfl fun T hT => ?_
      rw [Finset.prod_union (Finset.disjoint_left.mpr fun x hx hxT =>
        (Finset.mem_compl.mp hx) (Finset.mem_powerset.mp hT hxT))]
      ring
    have hu : Nᶜ ∪ N = Finset.univ := by ext x; simp [em']
    rw [e2, ← Finset.add_sum_erase _ _ (Finset.mem_powerset_self N), hu]
    ring
  rw [hsum]
  apply Submodule.sum_mem
  intro T hT
  obtain ⟨hne, hT⟩ := Finset.mem_erase.mp hT
  have hTN := Finset.mem_powerset.mp hT
  obtain ⟨i, hi, hiT⟩ := Finset.exists_of_ssubset (Finset.ssubset_iff_subset_ne.mpr ⟨hTN, hne⟩)
  exact prod_mem_lineFn A (Nᶜ ∪ T) i (by simp [hi, hiT]) _

theorem dot_Z {n : ℕ} (A : Mat n) (hA : A.det ≠ 0) (Z : Vec n) (y : Fin n → ℝ) :
    dot Z y = ∑ i, lam A Z i * dot (A i) y := by
  unfold dot
  have : ∀ k, (Z k : ℝ) * y k = ∑ i, lam A Z i * ((A i k : ℝ) * y k) := by
    intro k
    rw [comb_lam A hA Z k]
    unfold comb
    rw [Finset.sum_mul]
    exact Finset.sum_congr rfl fun i _ => by ring
  simp only [this, Finset.mul_sum]
  rw [Finset.sum_comm]

/-- **The polar form of Barvinok's step**, at every point. -/
theorem polar_identity {n : ℕ} (A : Mat n) (hA : A.det ≠ 0) (Z : Vec n)
    (hpos : ∃ i, 0 < detsOf A Z i * A.det) :
    (fun y => ind (polar A) y -
      ∑ i, A.det.sign * (detsOf A Z i).sign * ind (polar (A.updateRow i Z)) y) ∈ lineFn n := by
  classical
  set N : Finset (Fin n) := Finset.univ.filter fun i => lam A Z i < 0 with hN
  set P : Finset (Fin n) := Finset.univ.filter fun i => 0 < lam A Z i with hP
  have hPne : P.Nonempty := by
    obtain ⟨i, hi⟩ := hpos
    refine ⟨i, ?_⟩
    simp only [hP, Finset.mem_filter, Finset.mem_univ, true_and]
    have h1 : (0 : ℝ) < detsOf A Z i * A.det := by exact_mod_cast hi
    have hdet : (A.det : ℝ) ≠ 0 := by exact_mod_cast hA
    unfold lam
    rcases lt_or_gt_of_ne hdet with h | h
    · exact div_pos_of_neg_of_neg (neg_of_mul_pos_left h1 h.le) h
    · exact div_pos (pos_of_mul_pos_left h1 h.le) h
  -- no point satisfies: outside exactly the negative half-spaces and outside that of Z
  have hA0 : ∀ y, (∏ j ∈ Nᶜ, half (A j) y) * (∏ j ∈ N, (1 - half (A j) y)) * (1 - half Z y) = 0 := by
    intro y
    by_contra hne
    have h1 := left_ne_zero_of_mul hne
    have h2 := right_ne_zero_of_mul hne
    have h3 := Finset.prod_ne_zero_iff.mp (left_ne_zero_of_mul h1)
    have h4 := Finset.prod_ne_zero_iff.mp (right_ne_zero_of_mul h1)
    have hZ : ¬ dot Z y ≤ 0 := fun h => h2 (by unfold half; rw [if_pos h]; rfl)
    apply hZ
    rw [dot_Z A hA]
    apply Finset.sum_nonpos
    intro i _
    by_cases hi : i ∈ N
    · have : ¬ dot (A i) y ≤ 0 := fun h => h4 i hi (by unfold half; rw [if_pos h]; rfl)
      have hl : lam A Z i < 0 := by simpa [hN] using hi
      exact (mul_neg_of_neg_of_pos hl (not_le.mp this)).le
    · have : dot (A i) y ≤ 0 := by
        by_contra hc
        exact h3 i (Finset.mem_compl.mpr hi) (by unfold half; rw [if_neg hc])
      have hl : 0 ≤ lam A Z i := by simpa [hN] using hi
      exact mul_nonpos_of_nonneg_of_nonpos hl this
  have hB0 : ∀ y, half Z y * (∏ j ∈ Pᶜ, half (A j) y) * ∏ j ∈ P, (1 - half (A j) y) = 0 := by
    intro y
    by_contra hne
    have h1 := left_ne_zero_of_mul hne
    have h4 := Finset.prod_ne_zero_iff.mp (right_ne_zero_of_mul hne)
    have h2 := left_ne_zero_of_mul h1
    have h3 := Finset.prod_ne_zero_iff.mp (right_ne_zero_of_mul h1)
    have hZ : dot Z y ≤ 0 := by
      by_contra hc
      exact h2 (by unfold half; rw [if_neg hc])
    have : 0 < dot Z y := by
      rw [dot_Z A hA]
      have hterm : ∀ i ∈ Finset.univ, 0 ≤ lam A Z i * dot (A i) y := by
        intro i _
        by_cases hi : i ∈ P
        · have : ¬ dot (A i) y ≤ 0 := fun h => h4 i hi (by unfold half; rw [if_pos h]; rfl)
          have hl : 0 < lam A Z i := by simpa [hP] using hi
          exact (mul_pos hl (not_le.mp this)).le
        · have : dot (A i) y ≤ 0 := by
            by_contra hc
            exact h3 i (Finset.mem_compl.mpr hi) (by unfold half; rw [if_neg hc])
          have hl : lam A Z i ≤ 0 := by simpa [hP] using hi
          exact mul_nonneg_of_nonpos_of_nonpos hl this
      obtain ⟨i, hi⟩ := hPne
      have hi1 : ¬ dot (A i) y ≤ 0 := fun h => h4 i hi (by unfold half; rw [if_pos h]; rfl)
      have hl : 0 < lam A Z i := by simpa [hP] using hi
      exact lt_of_lt_of_le (mul_pos hl (not_le.mp hi1))
        (Finset.single_le_sum hterm (Finset.mem_univ i))
    linarith
  have eA := expand A N
  have eZN := expand_Z A Z N
  have eZP := expand_Z A Z P
  have key : (fun y => ind (polar A) y -
      ∑ i, A.det.sign * (detsOf A Z i).sign * ind (polar (A.updateRow i Z)) y) =
      ((-1) ^ N.card : ℤ) • ((fun y => half Z y * (∏ j ∈ Nᶜ, half (A j) y) *
          ∏ j ∈ N, (1 - half (A j) y) -
        (-1) ^ N.card * (half Z y * ∏ j, half (A j) y) +
        (-1) ^ N.card * ∑ i ∈ N, half Z y * ∏ j ∈ Finset.univ.erase i, half (A j) y) -
      (fun y => (∏ j ∈ Nᶜ, half (A j) y) * ∏ j ∈ N, (1 - half (A j) y) -
        (-1) ^ N.card * ∏ j, half (A j) y)) -
      ((-1) ^ P.card : ℤ) • (fun y => half Z y * (∏ j ∈ Pᶜ, half (A j) y) *
          ∏ j ∈ P, (1 - half (A j) y) -
        (-1) ^ P.card * (half Z y * ∏ j, half (A j) y) +
        (-1) ^ P.card * ∑ i ∈ P, half Z y * ∏ j ∈ Finset.univ.erase i, half (A j) y) := by
    funext y
    have hp1 : ((-1) ^ N.card * (-1) ^ N.card : ℤ) = 1 := by
      rw [← mul_pow]; simp
    have hp2 : ((-1) ^ P.card * (-1) ^ P.card : ℤ) = 1 := by
      rw [← mul_pow]; simp
    have hchild : ∀ i, ind (polar (A.updateRow i Z)) y =
        half Z y * ∏ j ∈ Finset.univ.erase i, half (A j) y := by
      intro i
      rw [ind_polar, ← Finset.mul_prod_erase _ _ (Finset.mem_univ i), updateRow_self]
      congr 1
      refine Finset.prod_congr rfl fun j hj => ?_
      rw [updateRow_ne (Finset.mem_erase.mp hj).1]
    have hsum : ∑ i, A.det.sign * (detsOf A Z i).sign * ind (polar (A.updateRow i Z)) y =
        (∑ i ∈ P, half Z y * ∏ j ∈ Finset.univ.erase i, half (A j) y) -
        ∑ i ∈ N, half Z y * ∏ j ∈ Finset.univ.erase i, half (A j) y := by
      rw [hP, hN, Finset.sum_filter, Finset.sum_filter, ← Finset.sum_sub_distrib]
      refine Finset.sum_congr rfl fun i _ => ?_
      rw [← sg_lam A hA, hchild]
      unfold sg
      by_cases h1 : 0 < lam A Z i
      · rw [if_pos h1, if_pos h1, if_neg (not_lt.mpr h1.le)]; ring
      · rw [if_neg h1, if_neg h1]
        by_cases h2 : lam A Z i < 0
        · rw [if_pos h2, if_pos h2]; ring
        · rw [if_neg h2, if_neg h2]; ring
    rw [hsum, ind_polar]
    simp only [Pi.sub_apply, Pi.smul_apply, smul_eq_mul]
    have a := hA0 y
    have b := hB0 y
    rw [b]
    linear_combination (-(∏ j, half (A j) y) + half Z y * ∏ j, half (A j) y -
        ∑ i ∈ N, half Z y * ∏ j ∈ Finset.univ.erase i, half (A j) y) * hp1 +
      ((∑ i ∈ P, half Z y * ∏ j ∈ Finset.univ.erase i, half (A j) y) -
        half Z y * ∏ j, half (A j) y) * hp2 + (-1) ^ N.card * a
  rw [key]
  exact Submodule.sub_mem _ (Submodule.smul_mem _ _ (Submodule.sub_mem _ eZN eA))
    (Submodule.smul_mem _ _ eZP)

/-! ## The recursion, for any additive quantity -/

/-- Bookkeeping for the recursion: the quantity `val` is the sum of the quantities of the newly
delivered cones, and every one of them was accepted by the consumer. -/
def SumOut {n : ℕ} {M : Type*} [AddCommMonoid M] (P : Params n) (f : ℤ → Mat n → M) (val : M)
    (out : List (Cone n)) : Outcome n → Prop
  | .done ok out' _ => ∃ new, out' = out ++ new ∧ (ok = true →
      val = (new.map fun D => f D.coefficient (workRays P.mode D)).sum ∧
      ∀ pre D post, new = pre ++ D :: post → P.accept (out ++ pre) D = true)
  | .notIrrational => True
  | .abort => True

/-- Quantity of an optional child. -/
def childVal {n : ℕ} {M : Type*} [AddCommMonoid M] (f : ℤ → Mat n → M) : Option (Cone n) → M
  | none => 0
  | some c => f c.coefficient c.rays

theorem loop_sum {n : ℕ} [NeZero n] {M : Type*} [AddCommMonoid M] (P : Params n)
    (f : ℤ → Mat n → M) (N : ℕ)
    (ch : Fin n → Option (Cone n)) (hN : ∀ j c, ch j = some c → c.determinant.natAbs < N)
    (hrec : ∀ j c, ch j = some c → ∀ depth out md,
      SumOut P f (f c.coefficient c.rays) out (dfs P c depth out md))
    (js : List (Fin n)) (depth : ℕ) (out : List (Cone n)) (md : ℕ) :
    SumOut P f (js.map fun j => childVal f (ch j)).sum out (loop P N ch hN js depth out md) := by
  induction js generalizing out md with
  | nil => rw [loop]; exact ⟨[], by simp, fun _ => ⟨by simp, fun pre D post h => by simp at h⟩⟩
  | cons j js ih =>
    rw [loop]
    split
    · trivial
    · rename_i c hc
      have h1 := hrec j c hc depth out md
      split
      · rename_i out1 md1 hr
        rw [hr] at h1
        obtain ⟨new1, rfl, hd1⟩ := h1
        obtain ⟨e1, a1⟩ := hd1 rfl
        have h2 := ih (out ++ new1) md1
        generalize loop P N ch hN js depth (out ++ new1) md1 = r at h2
        cases r with
        | done ok out2 md2 =>
          obtain ⟨new2, rfl, hd2⟩ := h2
          refine ⟨new1 ++ new2, by simp, fun hok => ?_⟩
          obtain ⟨e2, a2⟩ := hd2 hok
          refine ⟨?_, fun pre D post h => ?_⟩
          · rw [List.map_cons, List.sum_cons, e2, hc]
            simp only [childVal]
            rw [e1, List.map_append, List.sum_append]
          · rcases List.append_eq_append_iff.mp h with ⟨l, rfl, h'⟩ | ⟨l, rfl, h'⟩
            · rw [← List.append_assoc]
              exact a2 l D post h'
            · cases l with
              | nil =>
                simp only [List.nil_append] at h' ⊢
                have := a2 [] D post (by rw [List.nil_append]; exact h'.symm)
                simpa using this
              | cons x l =>
                simp only [List.cons_append, List.cons.injEq] at h'
                obtain ⟨rfl, rfl⟩ := h'
                exact a1 pre D l rfl
        | notIrrational => trivial
        | abort => trivial
      · rename_i hne
        generalize hr : dfs P c depth out md = r at h1 hne
        cases r with
        | done ok out1 md1 =>
          obtain ⟨new1, rfl, hd1⟩ := h1
          cases ok with
          | true => exact absurd rfl (hne _ _)
          | false => exact ⟨new1, rfl, fun h => by cases h⟩
        | notIrrational => trivial
        | abort => trivial

/-- If one step preserves a quantity, then so does the recursion. -/
theorem dfs_sum {n : ℕ} [NeZero n] {M : Type*} [AddCommMonoid M] (P : Params n) (hP : P.ntl.Ok)
    (f : ℤ → Mat n → M)
    (hstep : ∀ (C : Cone n) (Z : Vec n), Wf C → (∃ i, 0 < detsOf C.rays Z i * C.rays.det) →
      f C.coefficient C.rays = ∑ i, childVal f (childrenOf C Z i)) (N : ℕ) :
    ∀ C : Cone n, C.determinant.natAbs = N → Wf C → ∀ depth out md,
      SumOut P f (f C.coefficient C.rays) out (dfs P C depth out md) := by
  induction N using Nat.strong_induction_on with
  | _ N ih =>
    intro C hCN hC depth out md
    obtain ⟨F, hF, hdual, hdd⟩ := hC.facets
    have hFd := det_transpose_mul_ne C.rays F C.facetDivisors hC.div_pos hdual
    rw [dfs]
    split
    · rename_i h0
      exfalso
      unfold criterion at h0
      split at h0
      · rw [abs_eq_zero, hdd] at h0; exact hFd h0
      · rw [abs_eq_zero, hC.det_eq] at h0; exact hC.det_ne h0
    · split
      · trivial
      · split
        · unfold deliver
          have single : ∀ (D D' : Cone n) (pre post : List (Cone n)), [D] = pre ++ D' :: post →
              pre = [] ∧ D' = D := by
            intro D D' pre post h
            cases pre with
            | nil => simp only [List.nil_append, List.cons.injEq] at h; exact ⟨rfl, h.1.symm⟩
            | cons x l => simp at h
          cases hm : P.mode with
          | dual =>
            have hz : dualizeCone C = some (swapDual C F) := by unfold dualizeCone; rw [hF]
            simp only [hz]
            refine ⟨[swapDual C F], rfl, fun hacc => ⟨?_, fun pre D post h => ?_⟩⟩
            · simp [hm, workRays, swapDual]
            · obtain ⟨rfl, rfl⟩ := single _ _ _ _ h
              simpa using hacc
          | primal =>
            refine ⟨[C], rfl, fun hacc => ⟨?_, fun pre D post h => ?_⟩⟩
            · simp [hm, workRays]
            · obtain ⟨rfl, rfl⟩ := single _ _ _ _ h
              simpa using hacc
        · split
          · trivial
          · rename_i Z ch hst
            split
            · trivial
            · obtain ⟨hch, hpos, -⟩ := barvinokStep_spec hP hC hst
              subst hch
              have hdec := step_decreases hst
              have hrec : ∀ j c, childrenOf C Z j = some c → ∀ depth out md,
                  SumOut P f (f c.coefficient c.rays) out (dfs P c depth out md) := by
                intro j c hc depth out md
                have hj : detsOf C.rays Z j ≠ 0 := by
                  intro hj; rw [childrenOf_none C Z j hj] at hc; cases hc
                obtain ⟨c', hc', hwf, -⟩ := childrenOf_some C Z j hj
                rw [hc] at hc'
                cases hc'
                exact ih c.determinant.natAbs (hCN ▸ hdec j c hc) c rfl hwf depth out md
              have hl := loop_sum P f C.determinant.natAbs (childrenOf C Z) hdec hrec
                (order (detsOf C.rays Z)) (depth + 1) out (if depth > md then depth else md)
              have hs : ((order (detsOf C.rays Z)).map fun j => childVal f (childrenOf C Z j)).sum =
                  f C.coefficient C.rays := by
                rw [hstep C Z hC hpos]
                obtain ⟨hnd, hmem⟩ := order_spec (detsOf C.rays Z)
                rw [← List.sum_toFinset _ hnd]
                apply Finset.sum_subset (Finset.subset_univ _)
                intro i _ hi
                have : detsOf C.rays Z i = 0 := by
                  by_contra hc
                  exact hi (List.mem_toFinset.mpr ((hmem i).mpr hc))
                rw [childrenOf_none C Z i this]; rfl
              rw [hs] at hl
              exact hl

/-- The quantity used in dual mode: the indicator of the polar, modulo functions with lines. -/
noncomputable def polarClass {n : ℕ} (c : ℤ) (A : Mat n) : ((Fin n → ℝ) → ℤ) ⧸ lineFn n :=
  Submodule.Quotient.mk (fun y => c * ind (polar A) y)

theorem polarClass_step {n : ℕ} (C : Cone n) (Z : Vec n) (hC : Wf C)
    (hpos : ∃ i, 0 < detsOf C.rays Z i * C.rays.det) :
    polarClass C.coefficient C.rays = ∑ i, childVal polarClass (childrenOf C Z i) := by
  have h := polar_identity C.rays hC.det_ne Z hpos
  have h2 : ∀ i, childVal polarClass (childrenOf C Z i) =
      (lineFn n).mkQ (fun y => C.coefficient * (C.rays.det.sign * (detsOf C.rays Z i).sign *
        ind (polar (C.rays.updateRow i Z)) y)) := by
    intro i
    by_cases hi : detsOf C.rays Z i = 0
    · rw [childrenOf_none C Z i hi, hi]
      simp only [childVal, Int.sign_zero, mul_zero, zero_mul]
      exact (map_zero ((lineFn n).mkQ)).symm
    · obtain ⟨c, hc, -, hr, -, -, hcoef⟩ := childrenOf_some C Z i hi
      rw [hc]
      simp only [childVal, polarClass, hr, hcoef, hC.det_eq]
      show (lineFn n).mkQ _ = _
      congr 1
      funext y
      ring
  simp only [h2]
  rw [← map_sum]
  unfold polarClass
  show (lineFn n).mkQ _ = _
  rw [← sub_eq_zero, ← map_sub, Submodule.mkQ_apply, Submodule.Quotient.mk_eq_zero]
  have := Submodule.smul_mem _ C.coefficient h
  convert this using 1
  funext y
  simp only [Pi.sub_apply, Finset.sum_apply, Pi.smul_apply, smul_eq_mul, mul_sub, Finset.mul_sum]

/-- **C18, dual decomposition, exact on all points.** When the recursion returns 1 in dual mode, the
signed sum of the indicators of the delivered cones equals the indicator of the polar of the
decomposed cone, at *every* real point (boundaries included), up to a function that is a
combination of functions constant along rational lines. (Such functions contribute nothing to
generating functions.) All delivered cones have the vertex of the given cone. -/
theorem dfs_exact_dual_lines {n : ℕ} [NeZero n] (P : Params n) (hP : P.ntl.Ok)
    (hm : P.mode = .dual) (C : Cone n) (hC : Wf C) (depth : ℕ) (out : List (Cone n)) (md : ℕ)
    {out' : List (Cone n)} {md' : ℕ} (h : dfs P C depth out md = .done true out' md') :
    ∃ new, out' = out ++ new ∧ (∀ D ∈ new, Delivered P C D) ∧
      ∃ g ∈ lineFn n, ∀ y, (new.map fun D => D.coefficient * ind (cone D.rays) y).sum =
        C.coefficient * ind (polar C.rays) y + g y := by
  have h1 := dfs_inv P hP _ C rfl hC depth out md
  have h2 := dfs_sum P hP polarClass polarClass_step _ C rfl hC depth out md
  rw [h] at h1 h2
  obtain ⟨new, e1, hD, -, -⟩ := h1
  obtain ⟨new', e2, hp⟩ := h2
  have : new' = new := by rw [e1] at e2; exact (List.append_cancel_left e2).symm
  subst this
  refine ⟨new', e1, hD, _, ?_, fun y => (add_sub_cancel _ _).symm⟩
  obtain ⟨hs, -⟩ := hp rfl
  have hcone : ∀ D ∈ new', cone D.rays = polar (workRays P.mode D) := by
    intro D hmem
    obtain ⟨F, hF, -, hFd, hdual⟩ := (hD D hmem).facets
    ext y
    rw [mem_polar, hm]
    simp only [workRays, hF, Option.getD_some]
    exact mem_cone_iff D.rays F D.facetDivisors ((hD D hmem).det_eq ▸ (hD D hmem).det_ne)
      (hD D hmem).div_pos hdual y
  have hl : ∀ L : List (Cone n), (L.map fun D => polarClass D.coefficient (workRays P.mode D)).sum =
      (lineFn n).mkQ (fun y => (L.map fun D => D.coefficient *
        ind (polar (workRays P.mode D)) y).sum) := by
    intro L
    induction L with
    | nil => exact (map_zero ((lineFn n).mkQ)).symm
    | cons D L ih =>
      rw [List.map_cons, List.sum_cons, ih]
      show (lineFn n).mkQ _ + _ = _
      rw [← map_add]
      rfl
  rw [hl] at hs
  have hs' : (lineFn n).mkQ (fun y => C.coefficient * ind (polar C.rays) y) =
      (lineFn n).mkQ _ := hs
  rw [← sub_eq_zero, ← map_sub, Submodule.mkQ_apply, Submodule.Quotient.mk_eq_zero] at hs'
  have := Submodule.neg_mem _ hs'
  convert this using 1
  funext y
  simp only [Pi.neg_apply, Pi.sub_apply, neg_sub]
  congr 2
  apply List.map_congr_left
  intro D hmem
  rw [hcone D hmem]

/-- When the recursion returns 1, the consumer accepted every cone, in order. -/
theorem dfs_accepted {n : ℕ} [NeZero n] (P : Params n) (hP : P.ntl.Ok) (C : Cone n) (hC : Wf C)
    (depth : ℕ) (out : List (Cone n)) (md : ℕ) {out' : List (Cone n)} {md' : ℕ}
    (h : dfs P C depth out md = .done true out' md') :
    ∃ new, out' = out ++ new ∧
      ∀ pre D post, new = pre ++ D :: post → P.accept (out ++ pre) D = true := by
  have h2 := dfs_sum P hP (fun _ _ => (0 : ℕ)) (fun C Z _ _ => by
    symm
    apply Finset.sum_eq_zero
    intro i _
    cases childrenOf C Z i <;> rfl) _ C rfl hC depth out md
  rw [h] at h2
  obtain ⟨new, e, hp⟩ := h2
  exact ⟨new, e, (hp rfl).2⟩

end Verif.Barvinok
