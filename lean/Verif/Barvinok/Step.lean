import Verif.Barvinok.Facets
import Verif.Barvinok.Signs
import Mathlib.Tactic.LinearCombination
import Mathlib.Algebra.BigOperators.Field

/-!
# One Barvinok step (C16)
-/

namespace Verif.Barvinok

open Spec Matrix

/-- A cone with its facets in place, as every cone handled by the recursion is: the documented
guarantee of cone.h lines 75–77 together with correct determinants. -/
structure Wf {n : ℕ} (C : Cone n) : Prop where
  det_eq : C.determinant = C.rays.det
  det_ne : C.rays.det ≠ 0
  facets : ∃ F, C.facets = some F ∧
    (∀ i j, ∑ k, C.rays i k * F j k = if i = j then -C.facetDivisors j else 0) ∧
    C.dualDeterminant = F.det
  div_pos : ∀ j, 0 < C.facetDivisors j
  div_dvd : ∀ j, C.facetDivisors j ∣ C.determinant

theorem wf_computeDetAndFacets {n : ℕ} {C D : Cone n} (h : computeDetAndFacets C = some D) :
    Wf D ∧ D.rays = C.rays ∧ D.coefficient = C.coefficient ∧ D.vertex = C.vertex := by
  by_cases hd : C.rays.det = 0
  · rw [facets_singular C hd] at h; cases h
  · have hf : C.facets = none := by
      by_contra hc
      have : C.facets.isSome = true := Option.isSome_iff_ne_none.mpr hc
      unfold computeDetAndFacets at h
      rw [if_pos this] at h
      cases h
    obtain ⟨F, d, hs, hpos, hdual, -, hdvd⟩ := computeDetAndFacets_some C hf hd
    rw [hs] at h
    cases h
    exact ⟨⟨rfl, hd, ⟨F, rfl, hdual, rfl⟩, hpos, hdvd⟩, rfl, rfl, rfl⟩

theorem cramer_rows {n : ℕ} (A : Mat n) (Z : Vec n) (k : Fin n) :
    ∑ i, detsOf A Z i * A i k = A.det * Z k := by
  have h := congrFun (mulVec_cramer A.transpose Z) k
  rw [det_transpose] at h
  simp only [mulVec, dotProduct, Pi.smul_apply, smul_eq_mul] at h
  rw [← h]
  refine Finset.sum_congr rfl fun i _ => ?_
  rw [cramer_transpose_apply, transpose_apply, mul_comm]
  rfl

theorem detsOf_neg {n : ℕ} (A : Mat n) (Z : Vec n) (i : Fin n) :
    detsOf A (-Z) i = -detsOf A Z i := by
  have : A.updateRow i (-Z) = A.updateRow i ((-1 : ℤ) • Z) := by simp
  unfold detsOf
  rw [this, det_updateRow_smul]
  simp

/-- All determinants zero means the vector is zero. -/
theorem dets_ne_zero {n : ℕ} (A : Mat n) (hA : A.det ≠ 0) (Z : Vec n) (hZ : Z ≠ 0) :
    ∃ i, detsOf A Z i ≠ 0 := by
  by_contra hc
  push Not at hc
  apply hZ
  funext k
  have := cramer_rows A Z k
  simp only [hc, zero_mul, Finset.sum_const_zero] at this
  exact (mul_eq_zero.mp this.symm).resolve_left hA

theorem row_indep {n : ℕ} (A : Mat n) (hA : A.det ≠ 0) (c : Vec n)
    (h : ∀ k, ∑ i, c i * A i k = 0) : c = 0 := by
  have h1 : c ᵥ* A = 0 := by funext k; exact h k
  have h2 := congrArg (fun v => v ᵥ* A.adjugate) h1
  simp only [vecMul_vecMul, mul_adjugate, zero_vecMul] at h2
  funext i
  have := congrFun h2 i
  simp at this
  exact this.resolve_right hA

/-- After `CheckOmega`, the vector has a positive coefficient with respect to some ray. -/
theorem checkOmega_pos {n : ℕ} (N : Ntl n) (hN : N.Ok) (A : Mat n) (hA : A.det ≠ 0) (Z : Vec n)
    (hZ : Z ≠ 0) : ∃ i, 0 < detsOf A (checkOmega N A Z) i * A.det := by
  set k := N.kernel (Fin.cons Z A) with hk
  have hmul : ∀ c, k 0 * Z c + ∑ i : Fin n, k i.succ * A i c = 0 := by
    intro c
    have := hN.kernel_mul (Fin.cons Z A) c
    rw [Fin.sum_univ_succ] at this
    exact this
  have hne : k ≠ 0 := hN.kernel_ne _
  have hk0 : k 0 ≠ 0 := by
    intro h0
    apply hne
    have h1 : (fun i : Fin n => k i.succ) = 0 := by
      apply row_indep A hA
      intro c
      have := hmul c
      rw [h0, zero_mul, zero_add] at this
      exact this
    funext i
    refine Fin.cases h0 (fun j => ?_) i
    exact congrFun h1 j
  -- k₀ · dets = - det · k
  have hrel : ∀ i : Fin n, k 0 * detsOf A Z i = -(A.det * k i.succ) := by
    have h1 : (fun i : Fin n => k 0 * detsOf A Z i + A.det * k i.succ) = 0 := by
      apply row_indep A hA
      intro c
      have h2 := hmul c
      have h3 := cramer_rows A Z c
      have : ∑ i, (k 0 * detsOf A Z i + A.det * k i.succ) * A i c =
          k 0 * ∑ i, detsOf A Z i * A i c + A.det * ∑ i : Fin n, k i.succ * A i c := by
        rw [Finset.mul_sum, Finset.mul_sum, ← Finset.sum_add_distrib]
        refine Finset.sum_congr rfl fun i _ => by ring
      rw [this, h3]
      linear_combination A.det * h2
    intro i
    have := congrFun h1 i
    simp only [Pi.zero_apply] at this
    linarith
  have hprod : ∀ i : Fin n, (k 0) ^ 2 * (detsOf A Z i * A.det) = -(A.det ^ 2 * (k 0 * k i.succ)) := by
    intro i
    linear_combination (k 0 * A.det) * hrel i
  have hk2 : 0 < (k 0) ^ 2 := by positivity
  have hd2 : 0 < A.det ^ 2 := by positivity
  have hflip : ∀ i, detsOf A (-Z) i * A.det = -(detsOf A Z i * A.det) := fun i => by
    rw [detsOf_neg]; ring
  unfold checkOmega
  simp only [← hk]
  split
  · rename_i hs
    -- all coefficients of Z are ≤ 0
    have hkk : ∀ i : Fin n, 0 ≤ k 0 * k i.succ := by
      intro i
      rcases hs with h | h
      · exact mul_nonneg (h 0) (h i.succ)
      · exact mul_nonneg_of_nonpos_of_nonpos (h 0) (h i.succ)
    obtain ⟨i, hi⟩ := dets_ne_zero A hA Z hZ
    refine ⟨i, ?_⟩
    rw [hflip]
    have h1 := hprod i
    have h2 : detsOf A Z i * A.det ≠ 0 := mul_ne_zero hi hA
    have h3 : detsOf A Z i * A.det ≤ 0 := by
      by_contra hc
      have := mul_pos hk2 (not_le.mp hc)
      have := mul_nonneg hd2.le (hkk i)
      linarith
    have := lt_of_le_of_ne h3 h2
    linarith
  · rename_i hs
    push Not at hs
    obtain ⟨⟨a, ha⟩, ⟨b, hb⟩⟩ := hs
    by_contra hc
    push Not at hc
    have hkk : ∀ i : Fin n, 0 ≤ k 0 * k i.succ := by
      intro i
      have h1 := hprod i
      have h2 := mul_nonpos_of_nonneg_of_nonpos hk2.le (hc i)
      by_contra hneg
      have := mul_neg_of_pos_of_neg hd2 (not_le.mp hneg)
      linarith
    rcases lt_or_gt_of_ne hk0 with h0 | h0
    · have : k b ≤ 0 := by
        refine Fin.cases h0.le (fun j => ?_) b
        by_contra hj
        have := mul_neg_of_neg_of_pos h0 (not_le.mp hj)
        linarith [hkk j]
      linarith
    · have : 0 ≤ k a := by
        refine Fin.cases h0.le (fun j => ?_) a
        by_contra hj
        have := mul_neg_of_pos_of_neg h0 (not_le.mp hj)
        linarith [hkk j]
      linarith

/-! ## The short vector is not zero -/

theorem row_ne_zero {n : ℕ} (U : Mat n) (hU : U.det ≠ 0) (i : Fin n) : U i ≠ 0 := by
  intro h
  exact hU (det_eq_zero_of_row_eq_zero i fun j => congrFun h j)

theorem norm_zero {n : ℕ} : norm (0 : Vec n) = 0 := by
  unfold norm
  have : ∀ l : List (Fin n),
      l.foldl (fun (m : ℤ) i => if m < |(0 : Vec n) i| then |(0 : Vec n) i| else m) 0 = 0 := by
    intro l
    induction l with
    | nil => rfl
    | cons a l ih => simpa using ih
  exact this _

theorem searchShort_spec {n : ℕ} (L : Mat n) (start : Vec n) (hs : start ≠ 0)
    (hsl : ∃ w : Vec n, start = w ᵥ* L) :
    searchShort L start ≠ 0 ∧ ∃ w : Vec n, searchShort L start = w ᵥ* L := by
  unfold searchShort
  generalize (100000000 : ℤ) = b
  generalize List.range (10 ^ n - 1) = l
  induction l generalizing start b with
  | nil => exact ⟨hs, hsl⟩
  | cons a l ih =>
    simp only [List.foldl_cons]
    split
    · rename_i h
      refine ih _ ?_ ?_ _
      · intro h0
        apply h.2
        rw [h0, norm_zero]
      · exact ⟨fun j => digit n (a + 1) j, rfl⟩
    · exact ih _ hs hsl _

theorem facetMatrix_det {n : ℕ} {C : Cone n} (hC : Wf C) {dual : Mat n}
    (h : createFacetMatrix C = some dual) : dual.det ≠ 0 := by
  obtain ⟨F, hF, hdual, -⟩ := hC.facets
  unfold createFacetMatrix at h
  simp only [hF] at h
  split at h
  · cases h
    have hFd := det_transpose_mul_ne C.rays F C.facetDivisors hC.div_pos hdual
    have : (Matrix.of fun i j => F i j * (C.determinant / C.facetDivisors i)) =
        Matrix.of fun i j => (C.determinant / C.facetDivisors i) * F i j := by
      ext i j; simp [mul_comm]
    have h2 : det (fun i j => F i j * (C.determinant / C.facetDivisors i) : Mat n) =
        (∏ i, (C.determinant / C.facetDivisors i)) * F.det := by
      rw [← det_mul_column]
      exact congrArg det this
    rw [h2]
    refine mul_ne_zero (Finset.prod_ne_zero_iff.mpr fun i _ => ?_) hFd
    obtain ⟨c, hc⟩ := hC.div_dvd i
    rw [hc, Int.mul_ediv_cancel_left _ (hC.div_pos i).ne']
    rintro rfl
    apply hC.det_ne
    rw [← hC.det_eq, hc, mul_zero]
  · cases h

theorem unit_det_ne {n : ℕ} {U : Mat n} (h : IsUnit U.det) : U.det ≠ 0 := h.ne_zero

theorem computeOmega0_ne {n : ℕ} [NeZero n] (N : Ntl n) (hN : N.Ok) (dual : Mat n) :
    computeOmega0 N dual ≠ 0 :=
  row_ne_zero _ (unit_det_ne (hN.lll_unimodular _)) _

theorem computeOmega2_ne {n : ℕ} [NeZero n] (N : Ntl n) (hN : N.Ok) (dual : Mat n)
    (hd : dual.det ≠ 0) : computeOmega2 N dual ≠ 0 := by
  unfold computeOmega2
  simp only
  set LL : Mat n := -dual.transpose with hLL
  have hLLd : LL.det ≠ 0 := by
    rw [hLL, det_neg, det_transpose]
    exact mul_ne_zero (pow_ne_zero _ (by norm_num)) hd
  have hL : (N.lll LL).1.det ≠ 0 := by
    rw [hN.lll_mul LL, det_mul]
    exact mul_ne_zero (unit_det_ne (hN.lll_unimodular LL)) hLLd
  obtain ⟨hs, w, hw⟩ := searchShort_spec (N.lll LL).1 ((N.lll LL).1 (shortIndex (N.lll LL).1))
    (row_ne_zero _ hL _) ⟨Pi.single (shortIndex (N.lll LL).1) 1, by
      rw [single_one_vecMul]; rfl⟩
  have hsol := hN.solve LL (searchShort (N.lll LL).1 ((N.lll LL).1 (shortIndex (N.lll LL).1)))
    ⟨w ᵥ* (N.lll LL).2, by rw [vecMul_vecMul, ← hN.lll_mul, ← hw]⟩
  intro h0
  rw [h0, zero_vecMul] at hsol
  exact hs hsol.symm

/-- What the choice of the vector guarantees: its coefficients with respect to the rays are all
smaller than one in absolute value, and at least one is positive. -/
theorem chooseOmega_spec {n : ℕ} [NeZero n] {N : Ntl n} (hN : N.Ok) {C : Cone n} (hC : Wf C)
    {Z : Vec n} (h : chooseOmega N C = some Z) :
    (∃ i, 0 < detsOf C.rays Z i * C.rays.det) ∧ ∀ i, |detsOf C.rays Z i| < |C.determinant| := by
  unfold chooseOmega at h
  split at h
  · cases h
  · rename_i dual hdual
    simp only at h
    split at h
    · cases h
      exact ⟨checkOmega_pos N hN _ hC.det_ne _ (computeOmega0_ne N hN dual), by assumption⟩
    · split at h
      · cases h
        exact ⟨checkOmega_pos N hN _ hC.det_ne _
          (computeOmega2_ne N hN dual (facetMatrix_det hC hdual)), by assumption⟩
      · cases h

/-! ## Coordinates in the children -/

theorem comb_updateRow {n : ℕ} (A : Mat n) (Z : Vec n) (l : Fin n → ℝ)
    (hZ : ∀ k, (Z k : ℝ) = comb A l k) (i : Fin n) (b : Fin n → ℝ) :
    comb (A.updateRow i Z) b = comb A fun j => (if j = i then 0 else b j) + b i * l j := by
  funext k
  unfold comb
  have h1 : ∀ j, b j * ((A.updateRow i Z j k : ℤ) : ℝ) =
      (if j = i then 0 else b j) * (A j k : ℝ) + if j = i then b i * (Z k : ℝ) else 0 := by
    intro j
    by_cases hj : j = i
    · subst hj; simp
    · simp [hj]
  simp only [h1, Finset.sum_add_distrib, add_mul]
  congr 1
  rw [Finset.sum_ite_eq' Finset.univ i]
  simp only [Finset.mem_univ, if_true, hZ, comb, Finset.mul_sum]
  refine Finset.sum_congr rfl fun j _ => by ring

/-- Coefficients of the vector with respect to the rays. -/
noncomputable def lam {n : ℕ} (A : Mat n) (Z : Vec n) (i : Fin n) : ℝ :=
  (detsOf A Z i : ℝ) / (A.det : ℝ)

theorem comb_lam {n : ℕ} (A : Mat n) (hA : A.det ≠ 0) (Z : Vec n) (k : Fin n) :
    (Z k : ℝ) = comb A (lam A Z) k := by
  have hA' : (A.det : ℝ) ≠ 0 := by exact_mod_cast hA
  have h : (∑ i, (detsOf A Z i : ℝ) * (A i k : ℝ)) = (A.det : ℝ) * (Z k : ℝ) := by
    exact_mod_cast cramer_rows A Z k
  unfold comb lam
  have : ∀ i, (detsOf A Z i : ℝ) / (A.det : ℝ) * (A i k : ℝ) =
      ((detsOf A Z i : ℝ) * (A i k : ℝ)) / (A.det : ℝ) := fun i => by ring
  simp only [this]
  rw [← Finset.sum_div, h]
  field_simp

theorem coords_child {n : ℕ} (A : Mat n) (hA : A.det ≠ 0) (Z : Vec n) (i : Fin n)
    (x b : Fin n → ℝ) (hi : detsOf A Z i ≠ 0) :
    comb A x = comb (A.updateRow i Z) b ↔
      b i = x i / lam A Z i ∧ ∀ j, j ≠ i → b j = x j - x i / lam A Z i * lam A Z j := by
  have hli : lam A Z i ≠ 0 :=
    div_ne_zero (by exact_mod_cast hi) (by exact_mod_cast hA)
  rw [comb_updateRow A Z (lam A Z) (comb_lam A hA Z) i b]
  constructor
  · intro h
    have h1 := coords_unique A hA _ _ h
    have hbi : b i = x i / lam A Z i := by
      have := congrFun h1 i
      simp only [if_true, zero_add] at this
      rw [this]; field_simp
    refine ⟨hbi, fun j hj => ?_⟩
    have := congrFun h1 j
    simp only [if_neg hj] at this
    rw [this, ← hbi]; ring
  · rintro ⟨h1, h2⟩
    congr 1
    funext j
    by_cases hj : j = i
    · subst hj
      simp only [if_true, zero_add, h1]; field_simp
    · simp only [if_neg hj, h2 j hj, h1]; ring

theorem det_child {n : ℕ} (A : Mat n) (Z : Vec n) (i : Fin n) :
    (A.updateRow i Z).det = detsOf A Z i := rfl

theorem mem_child_iff {n : ℕ} (A : Mat n) (hA : A.det ≠ 0) (Z : Vec n) (i : Fin n)
    (x : Fin n → ℝ) (hi : detsOf A Z i ≠ 0) :
    comb A x ∈ cone (A.updateRow i Z) ↔ InChild x (lam A Z) i := by
  have hli : lam A Z i ≠ 0 :=
    div_ne_zero (by exact_mod_cast hi) (by exact_mod_cast hA)
  constructor
  · rintro ⟨b, hb, h⟩
    obtain ⟨h1, h2⟩ := (coords_child A hA Z i x b hi).mp h
    refine ⟨hli, h1 ▸ hb i, fun j => ?_⟩
    by_cases hj : j = i
    · subst hj
      rw [div_mul_cancel₀ _ hli, sub_self]
    · rw [← h2 j hj]; exact hb j
  · rintro ⟨_, h1, h2⟩
    refine ⟨fun j => if j = i then x i / lam A Z i else x j - x i / lam A Z i * lam A Z j, ?_, ?_⟩
    · intro j
      by_cases hj : j = i
      · simpa [hj] using h1
      · simpa [hj] using h2 j
    · rw [coords_child A hA Z i _ _ hi]
      refine ⟨by simp, fun j hj => by simp [hj]⟩

theorem mem_cone_coords {n : ℕ} (A : Mat n) (hA : A.det ≠ 0) (x : Fin n → ℝ) :
    comb A x ∈ cone A ↔ ∀ i, 0 ≤ x i := by
  constructor
  · rintro ⟨b, hb, h⟩
    rw [coords_unique A hA _ _ h]; exact hb
  · intro h; exact ⟨x, h, rfl⟩

theorem sg_lam {n : ℕ} (A : Mat n) (hA : A.det ≠ 0) (Z : Vec n) (i : Fin n) :
    sg (lam A Z i) = A.det.sign * (detsOf A Z i).sign := by
  unfold sg lam
  rcases lt_trichotomy (detsOf A Z i) 0 with h | h | h <;>
    rcases lt_or_gt_of_ne hA with h' | h'
  · have a : ((detsOf A Z i : ℤ) : ℝ) < 0 := by exact_mod_cast h
    have b : ((A.det : ℤ) : ℝ) < 0 := by exact_mod_cast h'
    rw [if_pos (div_pos_of_neg_of_neg a b), Int.sign_eq_neg_one_of_neg h,
      Int.sign_eq_neg_one_of_neg h']; rfl
  · have a : ((detsOf A Z i : ℤ) : ℝ) < 0 := by exact_mod_cast h
    have b : 0 < ((A.det : ℤ) : ℝ) := by exact_mod_cast h'
    have c := div_neg_of_neg_of_pos a b
    rw [if_neg (not_lt.mpr c.le), if_pos c, Int.sign_eq_neg_one_of_neg h,
      Int.sign_eq_one_of_pos h']; rfl
  · simp [h]
  · simp [h]
  · have a : 0 < ((detsOf A Z i : ℤ) : ℝ) := by exact_mod_cast h
    have b : ((A.det : ℤ) : ℝ) < 0 := by exact_mod_cast h'
    have c := div_neg_of_pos_of_neg a b
    rw [if_neg (not_lt.mpr c.le), if_pos c, Int.sign_eq_one_of_pos h,
      Int.sign_eq_neg_one_of_neg h']; rfl
  · have a : 0 < ((detsOf A Z i : ℤ) : ℝ) := by exact_mod_cast h
    have b : 0 < ((A.det : ℤ) : ℝ) := by exact_mod_cast h'
    rw [if_pos (div_pos a b), Int.sign_eq_one_of_pos h, Int.sign_eq_one_of_pos h']; rfl

/-- The signed identity for matrices, at points off all facet hyperplanes. -/
theorem matrix_identity {n : ℕ} (A : Mat n) (hA : A.det ≠ 0) (Z : Vec n)
    (hpos : ∃ i, 0 < detsOf A Z i * A.det) (p : Fin n → ℝ) (hp : ¬ OnFacetPlane A p)
    (hpc : ∀ i, detsOf A Z i ≠ 0 → ¬ OnFacetPlane (A.updateRow i Z) p) :
    ind (cone A) p =
      ∑ i, A.det.sign * (detsOf A Z i).sign * ind (cone (A.updateRow i Z)) p := by
  obtain ⟨x, rfl⟩ := exists_coords A hA p
  have hdet : (A.det : ℝ) ≠ 0 := by exact_mod_cast hA
  have hlam0 : ∀ i, lam A Z i ≠ 0 ↔ detsOf A Z i ≠ 0 := by
    intro i
    unfold lam
    rw [Ne, div_eq_zero_iff, not_or]
    constructor
    · rintro ⟨h, _⟩; exact_mod_cast h
    · intro h; exact ⟨by exact_mod_cast h, hdet⟩
  have h := sign_identity x (lam A Z) ?_ ?_ ?_
  · unfold ind
    simp only [mem_cone_coords A hA x]
    rw [h]
    refine Finset.sum_congr rfl fun i _ => ?_
    rw [sg_lam A hA]
    by_cases hi : detsOf A Z i = 0
    · simp [hi]
    · have hm := mem_child_iff A hA Z i x hi
      by_cases hc : InChild x (lam A Z) i
      · rw [if_pos hc, if_pos (hm.mpr hc)]
      · rw [if_neg hc, if_neg (fun h => hc (hm.mp h))]
  · obtain ⟨i, hi⟩ := hpos
    refine ⟨i, ?_⟩
    have : (0 : ℝ) < detsOf A Z i * A.det := by exact_mod_cast hi
    unfold lam
    rcases lt_or_gt_of_ne hdet with h | h
    · exact div_pos_of_neg_of_neg (neg_of_mul_pos_left this h.le) h
    · exact div_pos (pos_of_mul_pos_left this h.le) h
  · intro i hi
    exact hp ⟨x, ⟨i, hi⟩, rfl⟩
  · intro i j hij hi heq
    have hi' := (hlam0 i).mp hi
    apply hpc i hi'
    refine ⟨fun j => if j = i then x i / lam A Z i else x j - x i / lam A Z i * lam A Z j,
      ⟨j, ?_⟩, ?_⟩
    · simp only [if_neg (Ne.symm hij)]
      field_simp
      linarith
    · rw [coords_child A hA Z i _ _ hi']
      refine ⟨by simp, fun j hj => by simp [hj]⟩

/-- Contribution of an optional child (NULL entries contribute nothing). -/
noncomputable def childTerm {n : ℕ} (p : Fin n → ℝ) : Option (Cone n) → ℤ
  | none => 0
  | some c => c.coefficient * ind (cone c.rays) p

theorem childrenOf_some {n : ℕ} (C : Cone n) (Z : Vec n) (i : Fin n)
    (hi : detsOf C.rays Z i ≠ 0) : ∃ c, childrenOf C Z i = some c ∧ Wf c ∧
      c.rays = C.rays.updateRow i Z ∧ c.vertex = C.vertex ∧
      c.determinant = detsOf C.rays Z i ∧
      c.coefficient = C.coefficient * C.determinant.sign * (detsOf C.rays Z i).sign := by
  unfold childrenOf
  rw [if_neg hi]
  obtain ⟨F, d, hs, -⟩ := computeDetAndFacets_some (childCone C Z i) rfl hi
  rw [hs]
  have := wf_computeDetAndFacets hs
  exact ⟨_, rfl, this.1, rfl, rfl, rfl, rfl⟩

theorem childrenOf_none {n : ℕ} (C : Cone n) (Z : Vec n) (i : Fin n)
    (hi : detsOf C.rays Z i = 0) : childrenOf C Z i = none := by
  unfold childrenOf; rw [if_pos hi]

theorem barvinokStep_spec {n : ℕ} [NeZero n] {N : Ntl n} (hN : N.Ok) {C : Cone n} (hC : Wf C)
    {Z : Vec n} {ch : Fin n → Option (Cone n)} (h : barvinokStep N C = some (Z, ch)) :
    ch = childrenOf C Z ∧ (∃ i, 0 < detsOf C.rays Z i * C.rays.det) ∧
      ∀ i, |detsOf C.rays Z i| < |C.determinant| := by
  unfold barvinokStep at h
  split at h
  · cases h
  · rename_i Z' hZ
    cases h
    exact ⟨rfl, chooseOmega_spec hN hC hZ⟩

theorem step_identity {n : ℕ} {C : Cone n} (hC : Wf C) {Z : Vec n}
    (hpos : ∃ i, 0 < detsOf C.rays Z i * C.rays.det) (p : Fin n → ℝ)
    (hp : ¬ OnFacetPlane C.rays p)
    (hpc : ∀ i c, childrenOf C Z i = some c → ¬ OnFacetPlane c.rays p) :
    C.coefficient * ind (cone C.rays) p = ∑ i, childTerm p (childrenOf C Z i) := by
  rw [matrix_identity C.rays hC.det_ne Z hpos p hp ?_, Finset.mul_sum]
  · refine Finset.sum_congr rfl fun i _ => ?_
    by_cases hi : detsOf C.rays Z i = 0
    · rw [childrenOf_none C Z i hi, hi]; simp [childTerm]
    · obtain ⟨c, hc, -, hr, -, -, hcoef⟩ := childrenOf_some C Z i hi
      rw [hc]
      simp only [childTerm, hr, hcoef, hC.det_eq]
      ring
  · intro i hi
    obtain ⟨c, hc, -, hr, -⟩ := childrenOf_some C Z i hi
    rw [← hr]
    exact hpc i c hc

end Verif.Barvinok
