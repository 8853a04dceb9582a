import Verif.Barvinok.Primitive
import Mathlib.LinearAlgebra.FreeModule.Finite.CardQuotient
import Mathlib.LinearAlgebra.Determinant
import Mathlib.LinearAlgebra.Matrix.Block
import Mathlib.LinearAlgebra.Matrix.ToLin
import Mathlib.Data.Nat.Find
import Mathlib.Algebra.Order.BigOperators.Ring.Finset
import Mathlib.Tactic.Positivity
import Mathlib.Tactic.NormNum
import Mathlib.Tactic.FieldSimp

/-!
# Short vectors: when a step of the decomposition succeeds

`barvinokStep` asserts that one of its two attempts finds a vector that makes all determinants smaller (barvinok.cpp 341–346).
Here it is shown from NTL's documentation of `LLL` (the result is a reduced basis with parameter `delta = 1`) that the assertion
never fails in dimension at most 4, and never for a determinant that is large in terms of the dimension; and that in every
dimension a vector as short as Minkowski's theorem promises exists.
-/

namespace Verif.Barvinok

open Matrix

variable {n : ℕ}

/-! ### Specification -/

/-- **Specification.** The rows of `L` are an LLL-reduced basis with parameter 1, in terms of the Gram–Schmidt coefficients `μ` and the squared
lengths `B` of the orthogonalized vectors (`L Lᵀ = μ · diag B · μᵀ` with `μ` lower unitriangular): NTL's manual for `LLL(det, B, U, a, b)`,
`delta = a/b`. -/
def Reduced (L : Mat n) : Prop :=
  ∃ (μ : Matrix (Fin n) (Fin n) ℚ) (B : Fin n → ℚ),
    (∀ i, μ i i = 1) ∧ (∀ i j, i < j → μ i j = 0) ∧ (∀ i j, j < i → |μ i j| ≤ 1 / 2) ∧ (∀ i, 0 < B i) ∧
    (∀ i j, ∑ k, (L i k : ℚ) * L j k = ∑ k, μ i k * B k * μ j k) ∧
    ∀ i j : Fin n, j.val = i.val + 1 → (1 - μ j i ^ 2) * B i ≤ B j

/-- NTL's `LLL` returns a reduced basis for non-singular input. -/
def Ntl.Reduces (N : Ntl n) : Prop := ∀ L, L.det ≠ 0 → Reduced (N.lll L).1

/-! ### The lattice in which the search takes place -/

theorem vecMul_facetMatrix {C : Cone n} (hC : Wf C) {dual : Mat n} (h : createFacetMatrix C = some dual) (Z : Vec n) (i : Fin n) :
    (Z ᵥ* (-dual.transpose)) i = detsOf C.rays Z i := by
  obtain ⟨F, hF, hdual, -⟩ := hC.facets
  unfold createFacetMatrix at h
  rw [hF] at h
  simp only at h
  split at h
  · cases h
    have hd := hC.div_pos i
    obtain ⟨q, hq⟩ := hC.div_dvd i
    have hdiv : C.determinant / C.facetDivisors i = q := by rw [hq]; exact Int.mul_ediv_cancel_left _ hd.ne'
    have hdet : C.determinant ≠ 0 := by rw [hC.det_eq]; exact hC.det_ne
    have key : C.determinant * ∑ k, Z k * F i k = -(detsOf C.rays Z i * C.facetDivisors i) := by
      rw [hC.det_eq, Finset.mul_sum]
      have : ∀ k, C.rays.det * (Z k * F i k) = ∑ j, detsOf C.rays Z j * (C.rays j k * F i k) := by
        intro k
        rw [← mul_assoc, ← cramer_rows, Finset.sum_mul]
        exact Finset.sum_congr rfl fun j _ => by ring
      simp only [this]
      rw [Finset.sum_comm]
      simp only [← Finset.mul_sum, hdual]
      simp
    have e : (Z ᵥ* (-transpose fun i j => F i j * (C.determinant / C.facetDivisors i))) i = -(q * ∑ k, Z k * F i k) := by
      simp only [vecMul, dotProduct, neg_apply, Finset.mul_sum, ← Finset.sum_neg_distrib]
      refine Finset.sum_congr rfl fun k _ => ?_
      show Z k * -(F i k * (C.determinant / C.facetDivisors i)) = _
      rw [hdiv]
      ring
    rw [e]
    apply mul_left_cancel₀ hdet
    calc C.determinant * -(q * ∑ k, Z k * F i k) = -(q * (C.determinant * ∑ k, Z k * F i k)) := by ring
      _ = q * (detsOf C.rays Z i * C.facetDivisors i) := by rw [key]; ring
      _ = (C.facetDivisors i * q) * detsOf C.rays Z i := by ring
      _ = C.determinant * detsOf C.rays Z i := by rw [← hq]
  · cases h

theorem det_facetMatrix {C : Cone n} (hC : Wf C) {dual : Mat n} (h : createFacetMatrix C = some dual) (hn : 0 < n) :
    (-dual.transpose).det.natAbs = C.determinant.natAbs ^ (n - 1) := by
  have hm : C.rays * (-dual.transpose) = Matrix.diagonal fun _ => C.determinant := by
    ext i j
    have := vecMul_facetMatrix hC h (C.rays i) j
    have e : (C.rays * (-dual.transpose)) i j = (C.rays i ᵥ* (-dual.transpose)) j := rfl
    rw [e, this, Matrix.diagonal_apply]
    unfold detsOf
    by_cases hij : i = j
    · subst hij
      rw [if_pos rfl, Matrix.updateRow_eq_self, hC.det_eq]
    · rw [if_neg hij]
      apply Matrix.det_zero_of_row_eq hij
      rw [Matrix.updateRow_self, Matrix.updateRow_ne hij]
  have h2 := congrArg (fun M => (Matrix.det M).natAbs) hm
  simp only [det_mul, det_diagonal, Finset.prod_const, Finset.card_univ, Fintype.card_fin, Int.natAbs_mul, Int.natAbs_pow] at h2
  rw [← hC.det_eq] at h2
  have hdet : 0 < C.determinant.natAbs := Int.natAbs_pos.2 (by rw [hC.det_eq]; exact hC.det_ne)
  apply Nat.eq_of_mul_eq_mul_left hdet
  rw [h2, ← pow_succ', Nat.sub_add_cancel hn]

theorem facetMatrix_some {C : Cone n} (hC : Wf C) : ∃ dual, createFacetMatrix C = some dual := by
  obtain ⟨F, hF, -⟩ := hC.facets
  unfold createFacetMatrix
  rw [hF]
  refine ⟨_, if_pos fun i => Int.emod_eq_zero_of_dvd (hC.div_dvd i)⟩

theorem decreases_check (N : Ntl n) (G : Mat n) (d : ℤ) (Z : Vec n) : decreases G d (checkOmega N G Z) ↔ decreases G d Z := by
  unfold checkOmega
  simp only
  split
  · unfold decreases
    simp only [detsOf_neg, abs_neg]
  · rfl

/-! ### The row taken -/

theorem shortIndex_le [NeZero n] (L : Mat n) (h0 : norm (L 0) ≠ 0) : norm (L (shortIndex L)) ≤ norm (L 0) := by
  unfold shortIndex
  have key : ∀ (l : List (Fin n)) (i : Fin n) (p : ℤ),
      ((l.foldl (fun (s : Fin n × ℤ) i => if norm (L i) ≠ 0 ∧ s.2 > norm (L i) then (i, norm (L i)) else s) (i, p)) = (i, p) ∧
        ∀ j ∈ l, norm (L j) ≠ 0 → p ≤ norm (L j)) ∨
      (∃ i', (l.foldl (fun (s : Fin n × ℤ) i => if norm (L i) ≠ 0 ∧ s.2 > norm (L i) then (i, norm (L i)) else s) (i, p)) =
        (i', norm (L i')) ∧ norm (L i') < p ∧ ∀ j ∈ l, norm (L j) ≠ 0 → norm (L i') ≤ norm (L j)) := by
    intro l
    induction l with
    | nil => intro i p; left; simp
    | cons a l ih =>
      intro i p
      simp only [List.foldl_cons]
      by_cases ha : norm (L a) ≠ 0 ∧ p > norm (L a)
      · rw [if_pos ha]
        right
        rcases ih a (norm (L a)) with ⟨h1, h2⟩ | ⟨i', h1, h2, h3⟩
        · refine ⟨a, h1, ha.2, fun j hj hn => ?_⟩
          rcases List.mem_cons.1 hj with rfl | hj
          · exact le_rfl
          · exact h2 j hj hn
        · refine ⟨i', h1, h2.trans ha.2, fun j hj hn => ?_⟩
          rcases List.mem_cons.1 hj with rfl | hj
          · exact h2.le
          · exact h3 j hj hn
      · rw [if_neg ha]
        have ha' : norm (L a) ≠ 0 → p ≤ norm (L a) := fun hn => by
          by_contra hc
          exact ha ⟨hn, not_le.1 hc⟩
        rcases ih i p with ⟨h1, h2⟩ | ⟨i', h1, h2, h3⟩
        · left
          refine ⟨h1, fun j hj hn => ?_⟩
          rcases List.mem_cons.1 hj with rfl | hj
          · exact ha' hn
          · exact h2 j hj hn
        · right
          refine ⟨i', h1, h2, fun j hj hn => ?_⟩
          rcases List.mem_cons.1 hj with rfl | hj
          · exact h2.le.trans (ha' hn)
          · exact h3 j hj hn
  rcases key (List.finRange n) 0 1000000 with ⟨h1, -⟩ | ⟨i', h1, -, h3⟩
  · rw [h1]
  · rw [h1]
    exact h3 0 (List.mem_finRange 0) h0

/-! ### Reduced bases -/

section Reduced

variable [NeZero n] {L : Mat n} {μ : Matrix (Fin n) (Fin n) ℚ} {B : Fin n → ℚ}

theorem B_first (h1 : ∀ i, μ i i = 1) (h2 : ∀ i j, i < j → μ i j = 0)
    (hG : ∀ i j, ∑ k, (L i k : ℚ) * L j k = ∑ k, μ i k * B k * μ j k) : ∑ k, (L 0 k : ℚ) * L 0 k = B 0 := by
  rw [hG 0 0, Finset.sum_eq_single 0]
  · rw [h1]; ring
  · intro k _ hk
    rw [h2 0 k (Fin.pos_iff_ne_zero.2 hk)]
    ring
  · simp

omit [NeZero n] in
theorem norm_sq_le (x : Vec n) : ((norm x : ℤ) : ℚ) ^ 2 ≤ ∑ k, (x k : ℚ) * x k := by
  rcases Nat.eq_zero_or_pos n with rfl | hn
  · simp [norm]
  have : ∃ i, norm x = |x i| := by
    by_contra hc
    push Not at hc
    have hlt : ∀ i, |x i| < norm x := fun i => lt_of_le_of_ne (abs_le_norm x i) fun e => hc i e.symm
    have := norm_le x (norm x - 1) (by have := hlt ⟨0, hn⟩; have := abs_nonneg (x ⟨0, hn⟩); omega) fun i => by have := hlt i; omega
    omega
  obtain ⟨i, hi⟩ := this
  have e : ((norm x : ℤ) : ℚ) ^ 2 = (x i : ℚ) * x i := by
    rw [hi]
    push_cast
    rw [sq_abs, sq]
  rw [e]
  exact Finset.single_le_sum (f := fun k => (x k : ℚ) * x k) (fun k _ => mul_self_nonneg _) (Finset.mem_univ i)

theorem B_growth (h3 : ∀ i j, j < i → |μ i j| ≤ 1 / 2) (hB : ∀ i, 0 < B i)
    (hL : ∀ i j : Fin n, j.val = i.val + 1 → (1 - μ j i ^ 2) * B i ≤ B j) (i : Fin n) : (3 / 4 : ℚ) ^ i.val * B 0 ≤ B i := by
  obtain ⟨k, hk⟩ := i
  induction k with
  | zero => simp only [pow_zero, one_mul]; exact le_rfl
  | succ k ih =>
    have h := ih (by omega)
    have h' := hL ⟨k, by omega⟩ ⟨k + 1, hk⟩ rfl
    have hμ := h3 ⟨k + 1, hk⟩ ⟨k, by omega⟩ (by show k < k + 1; omega)
    have hsq : μ ⟨k + 1, hk⟩ ⟨k, by omega⟩ ^ 2 ≤ 1 / 4 := by
      rw [← sq_abs]
      have := abs_nonneg (μ ⟨k + 1, hk⟩ ⟨k, by omega⟩)
      nlinarith
    have hb := hB ⟨k, by omega⟩
    calc (3 / 4 : ℚ) ^ (k + 1) * B 0 = 3 / 4 * ((3 / 4) ^ k * B 0) := by ring
      _ ≤ 3 / 4 * B ⟨k, by omega⟩ := by simp only at h; linarith
      _ ≤ (1 - μ ⟨k + 1, hk⟩ ⟨k, by omega⟩ ^ 2) * B ⟨k, by omega⟩ := by
        apply mul_le_mul_of_nonneg_right _ hb.le
        linarith
      _ ≤ _ := h'

omit [NeZero n] in
theorem det_gram (h1 : ∀ i, μ i i = 1) (h2 : ∀ i j, i < j → μ i j = 0)
    (hG : ∀ i j, ∑ k, (L i k : ℚ) * L j k = ∑ k, μ i k * B k * μ j k) : ((L.det : ℤ) : ℚ) ^ 2 = ∏ i, B i := by
  have hm : (L.map (Int.cast : ℤ → ℚ)) * (L.map (Int.cast : ℤ → ℚ)).transpose = μ * Matrix.diagonal B * μ.transpose := by
    ext i j
    rw [Matrix.mul_apply, Matrix.mul_apply]
    simp only [Matrix.transpose_apply, Matrix.map_apply, Matrix.mul_diagonal]
    exact hG i j
  have hμ : μ.det = 1 := by
    rw [Matrix.det_of_isLowerTriangular μ (fun i j h => h2 i j h)]
    exact Finset.prod_eq_one fun i _ => h1 i
  have hLd : (L.map (Int.cast : ℤ → ℚ)).det = ((L.det : ℤ) : ℚ) := by
    rw [Int.cast_det]
  have h := congrArg Matrix.det hm
  simp only [det_mul, det_transpose, det_diagonal, hμ, hLd, one_mul, mul_one] at h
  rw [sq]
  exact h

/-- The first vector of a reduced basis. -/
theorem reduced_first (hr : Reduced L) :
    ((norm (L 0) : ℤ) : ℚ) ^ (2 * n) * 3 ^ (n * (n - 1) / 2) ≤ 4 ^ (n * (n - 1) / 2) * ((L.det : ℤ) : ℚ) ^ 2 := by
  obtain ⟨μ, B, h1, h2, h3, hB, hG, hL⟩ := hr
  have hdet := det_gram h1 h2 hG
  have hprod : (3 / 4 : ℚ) ^ (n * (n - 1) / 2) * B 0 ^ n ≤ ∏ i, B i := by
    have : (3 / 4 : ℚ) ^ (n * (n - 1) / 2) * B 0 ^ n = ∏ i : Fin n, ((3 / 4 : ℚ) ^ i.val * B 0) := by
      rw [Finset.prod_mul_distrib, Finset.prod_pow_eq_pow_sum, Finset.prod_const, Finset.card_univ, Fintype.card_fin,
        Fin.sum_univ_eq_sum_range (fun i => i) n, Finset.sum_range_id]
    rw [this]
    exact Finset.prod_le_prod (fun i _ => by have := hB 0; positivity) fun i _ => B_growth h3 hB hL i
  have hn : ((norm (L 0) : ℤ) : ℚ) ^ (2 * n) ≤ B 0 ^ n := by
    rw [pow_mul]
    apply pow_le_pow_left₀ (sq_nonneg _)
    rw [← B_first h1 h2 hG]
    exact norm_sq_le _
  rw [hdet]
  have h4 : (4 : ℚ) ^ (n * (n - 1) / 2) * (3 / 4) ^ (n * (n - 1) / 2) = 3 ^ (n * (n - 1) / 2) := by
    rw [← mul_pow]; norm_num
  calc ((norm (L 0) : ℤ) : ℚ) ^ (2 * n) * 3 ^ (n * (n - 1) / 2) ≤ B 0 ^ n * 3 ^ (n * (n - 1) / 2) :=
        mul_le_mul_of_nonneg_right hn (by positivity)
    _ = 4 ^ (n * (n - 1) / 2) * ((3 / 4) ^ (n * (n - 1) / 2) * B 0 ^ n) := by rw [← h4]; ring
    _ ≤ _ := mul_le_mul_of_nonneg_left hprod (by positivity)

end Reduced

/-! ### The first attempt -/

theorem omega0_dets [NeZero n] (N : Ntl n) (hN : N.Ok) {C : Cone n} (hC : Wf C) {dual : Mat n} (h : createFacetMatrix C = some dual) :
    ∀ i, |detsOf C.rays (computeOmega0 N dual) i| ≤ norm ((N.lll (-dual.transpose)).1 0) := by
  intro i
  set LL : Mat n := -dual.transpose with hLL
  have hdet : (N.lll LL).1.det ≠ 0 := by
    rw [hN.lll_mul, det_mul]
    refine mul_ne_zero (hN.lll_unimodular LL).ne_zero ?_
    have := det_facetMatrix hC h (Nat.pos_of_ne_zero (NeZero.ne n))
    intro h0
    rw [← hLL, h0, Int.natAbs_zero] at this
    have hd : C.determinant ≠ 0 := by rw [hC.det_eq]; exact hC.det_ne
    exact pow_ne_zero _ (Int.natAbs_ne_zero.2 hd) this.symm
  have h0 : norm ((N.lll LL).1 0) ≠ 0 := by
    apply norm_ne
    intro h0
    exact hdet (Matrix.det_eq_zero_of_row_eq_zero 0 fun j => congrFun h0 j)
  refine le_trans ?_ (shortIndex_le _ h0)
  rw [← vecMul_facetMatrix hC h]
  have : computeOmega0 N dual ᵥ* LL = (N.lll LL).1 (shortIndex (N.lll LL).1) := by
    unfold computeOmega0
    simp only [← hLL]
    have e := congrFun (hN.lll_mul LL) (shortIndex (N.lll LL).1)
    rw [e]
    rfl
  rw [← hLL, this]
  exact abs_le_norm _ i

/-- The bound on the new determinants after the first attempt. -/
theorem omega0_bound [NeZero n] (N : Ntl n) (hN : N.Ok) (hR : N.Reduces) {C : Cone n} (hC : Wf C) {dual : Mat n}
    (h : createFacetMatrix C = some dual) (i : Fin n) :
    (detsOf C.rays (computeOmega0 N dual) i).natAbs ^ (2 * n) * 3 ^ (n * (n - 1) / 2) ≤
      4 ^ (n * (n - 1) / 2) * C.determinant.natAbs ^ (2 * (n - 1)) := by
  have hpos : 0 < n := Nat.pos_of_ne_zero (NeZero.ne n)
  have h1 := omega0_dets N hN hC h i
  have hdet0 := det_facetMatrix hC h hpos
  have hne : (-dual.transpose).det ≠ 0 := by
    intro h0
    rw [h0, Int.natAbs_zero] at hdet0
    have hd : C.determinant ≠ 0 := by rw [hC.det_eq]; exact hC.det_ne
    exact pow_ne_zero _ (Int.natAbs_ne_zero.2 hd) hdet0.symm
  have h2 := reduced_first (hR _ hne)
  have hdet : (N.lll (-dual.transpose)).1.det.natAbs = C.determinant.natAbs ^ (n - 1) := by
    rw [hN.lll_mul, det_mul, Int.natAbs_mul, Int.natAbs_of_isUnit (hN.lll_unimodular _), one_mul, hdet0]
  have hsq : (((N.lll (-dual.transpose)).1.det : ℤ) : ℚ) ^ 2 = ((C.determinant.natAbs ^ (2 * (n - 1)) : ℕ) : ℚ) := by
    rw [mul_comm 2, pow_mul, ← hdet]
    push_cast
    rw [Nat.cast_natAbs]
    push_cast
    rw [sq_abs]
  rw [hsq] at h2
  have h3 : (((detsOf C.rays (computeOmega0 N dual) i).natAbs : ℕ) : ℚ) ^ (2 * n) ≤
      ((norm ((N.lll (-dual.transpose)).1 0) : ℤ) : ℚ) ^ (2 * n) := by
    apply pow_le_pow_left₀ (by positivity)
    rw [Nat.cast_natAbs]
    exact_mod_cast h1
  have h4 : (((detsOf C.rays (computeOmega0 N dual) i).natAbs : ℕ) : ℚ) ^ (2 * n) * 3 ^ (n * (n - 1) / 2) ≤
      4 ^ (n * (n - 1) / 2) * ((C.determinant.natAbs ^ (2 * (n - 1)) : ℕ) : ℚ) :=
    (mul_le_mul_of_nonneg_right h3 (by positivity)).trans h2
  exact_mod_cast h4

/-- The first attempt succeeds whenever the determinant is large in terms of the dimension. -/
theorem first_attempt [NeZero n] (N : Ntl n) (hN : N.Ok) (hR : N.Reduces) {C : Cone n} (hC : Wf C)
    (hd : 4 ^ (n * (n - 1) / 2) < 3 ^ (n * (n - 1) / 2) * C.determinant.natAbs ^ 2) {dual : Mat n}
    (h : createFacetMatrix C = some dual) : decreases C.rays C.determinant (computeOmega0 N dual) := by
  intro i
  have hpos : 0 < n := Nat.pos_of_ne_zero (NeZero.ne n)
  have hb := omega0_bound N hN hR hC h i
  rw [Int.abs_eq_natAbs, Int.abs_eq_natAbs]
  by_contra hc
  push Not at hc
  have hc' : C.determinant.natAbs ≤ (detsOf C.rays (computeOmega0 N dual) i).natAbs := by exact_mod_cast hc
  have hdet : 0 < C.determinant.natAbs := Int.natAbs_pos.2 (by rw [hC.det_eq]; exact hC.det_ne)
  have h1 : C.determinant.natAbs ^ (2 * n) * 3 ^ (n * (n - 1) / 2) ≤ 4 ^ (n * (n - 1) / 2) * C.determinant.natAbs ^ (2 * (n - 1)) :=
    (Nat.mul_le_mul_right _ (Nat.pow_le_pow_left hc' _)).trans hb
  have e : C.determinant.natAbs ^ (2 * n) = C.determinant.natAbs ^ 2 * C.determinant.natAbs ^ (2 * (n - 1)) := by
    rw [← pow_add]; congr 1; omega
  rw [e] at h1
  have h2 : 3 ^ (n * (n - 1) / 2) * C.determinant.natAbs ^ 2 ≤ 4 ^ (n * (n - 1) / 2) := by
    refine le_of_mul_le_mul_right (a := C.determinant.natAbs ^ (2 * (n - 1))) ?_ (pow_pos hdet _)
    calc _ = C.determinant.natAbs ^ 2 * C.determinant.natAbs ^ (2 * (n - 1)) * 3 ^ (n * (n - 1) / 2) := by ring
      _ ≤ _ := h1
  omega

theorem choose_of_first [NeZero n] (N : Ntl n) {C : Cone n} {dual : Mat n} (h : createFacetMatrix C = some dual)
    (hd : decreases C.rays C.determinant (computeOmega0 N dual)) :
    chooseOmega N C = some (checkOmega N C.rays (computeOmega0 N dual)) := by
  unfold chooseOmega
  rw [h]
  simp only
  rw [if_pos ((decreases_check N _ _ _).2 hd)]

theorem choose_of_second [NeZero n] (N : Ntl n) {C : Cone n} {dual : Mat n} (h : createFacetMatrix C = some dual)
    (hd : decreases C.rays C.determinant (computeOmega2 N dual)) : (chooseOmega N C).isSome = true := by
  unfold chooseOmega
  rw [h]
  simp only
  split
  · rfl
  · rw [if_pos ((decreases_check N _ _ _).2 hd)]
    rfl

/-! ### Minkowski's theorem for the maximum norm -/

/-- Every full lattice contains a non-zero vector whose largest entry is at most the `n`-th root of the determinant. -/
theorem minkowski (hn : 0 < n) (L : Mat n) (hL : L.det ≠ 0) : ∃ x : Vec n, x ≠ 0 ∧ (norm (x ᵥ* L)).natAbs ^ n ≤ L.det.natAbs := by
  classical
  set f : (Fin n → ℤ) →ₗ[ℤ] (Fin n → ℤ) := L.vecMulLinear with hf
  have hfa : ∀ x, f x = x ᵥ* L := fun x => rfl
  have hinj : Function.Injective f := by
    rw [← LinearMap.ker_eq_bot, LinearMap.ker_eq_bot']
    intro x hx
    exact Matrix.eq_zero_of_vecMul_eq_zero hL hx
  have hdet : (LinearMap.det f).natAbs = L.det.natAbs := by
    have : f = Matrix.toLin' L.transpose := by
      ext x i
      simp [hf]
    rw [this, LinearMap.det_toLin', Matrix.det_transpose]
  have hcard : Nat.card ((Fin n → ℤ) ⧸ LinearMap.range f) = L.det.natAbs := by
    rw [← hdet, ← Submodule.natAbs_det_equiv (LinearMap.range f) (LinearEquiv.ofInjective f hinj)]
    rfl
  set D := L.det.natAbs with hD
  have hD0 : 0 < D := Int.natAbs_pos.2 hL
  set k := Nat.findGreatest (fun k => k ^ n ≤ D) D with hk
  have hk1 : k ^ n ≤ D := Nat.findGreatest_spec (P := fun k => k ^ n ≤ D) (m := 0) (Nat.zero_le _) (by simp [hn.ne'])
  have hk2 : D < (k + 1) ^ n := by
    by_contra hc
    push Not at hc
    have : k + 1 ≤ D := le_trans (Nat.le_self_pow hn.ne' _) hc
    exact Nat.findGreatest_is_greatest (P := fun k => k ^ n ≤ D) (Nat.lt_succ_self k) this hc
  have hfin : Finite ((Fin n → ℤ) ⧸ LinearMap.range f) := Nat.finite_of_card_ne_zero (by rw [hcard]; exact hD0.ne')
  have := Fintype.ofFinite ((Fin n → ℤ) ⧸ LinearMap.range f)
  obtain ⟨u, v, huv, he⟩ := Fintype.exists_ne_map_eq_of_card_lt
    (fun u : Fin n → Fin (k + 1) => (LinearMap.range f).mkQ fun i => ((u i : ℕ) : ℤ)) (by
      rw [← Nat.card_eq_fintype_card, hcard, Fintype.card_fun, Fintype.card_fin, Fintype.card_fin]
      exact hk2)
  have hmem : (fun i => ((u i : ℕ) : ℤ) - ((v i : ℕ) : ℤ)) ∈ LinearMap.range f := by
    have := (Submodule.Quotient.eq (LinearMap.range f)).1 he
    exact this
  obtain ⟨x, hx⟩ := hmem
  refine ⟨x, ?_, ?_⟩
  · rintro rfl
    apply huv
    funext i
    have := congrFun hx i
    rw [map_zero] at this
    simp only [Pi.zero_apply] at this
    apply Fin.ext
    omega
  · rw [← hfa, hx]
    refine le_trans (Nat.pow_le_pow_left ?_ n) hk1
    have := norm_le (fun i => ((u i : ℕ) : ℤ) - ((v i : ℕ) : ℤ)) k (by positivity) fun i => by
      have h1 := (u i).isLt
      have h2 := (v i).isLt
      rw [abs_le]
      constructor <;> omega
    have h0 := norm_nonneg (fun i => ((u i : ℕ) : ℤ) - ((v i : ℕ) : ℤ))
    omega

/-! ### The second attempt -/

theorem searchShort_le (L : Mat n) (start : Vec n) (c : ℕ) (h1 : 1 ≤ c) (h2 : c < 10 ^ n) (hne : norm (combo L c) ≠ 0)
    (hlt : norm (combo L c) < 100000000) : norm (searchShort L start) ≤ norm (combo L c) := by
  unfold searchShort
  have key : ∀ (l : List ℕ) (s : Vec n × ℤ), (s.2 = norm s.1 ∨ norm (combo L c) < s.2) → (s.2 ≤ norm (combo L c) ∨ c - 1 ∈ l) →
      norm (l.foldl (fun (s : Vec n × ℤ) i => if norm (combo L (i + 1)) < s.2 ∧ norm (combo L (i + 1)) ≠ 0
        then (combo L (i + 1), norm (combo L (i + 1))) else s) s).1 ≤ norm (combo L c) := by
    intro l
    induction l with
    | nil =>
      intro s ha hb
      rcases hb with hb | hb
      · rcases ha with ha | ha
        · rw [List.foldl_nil, ← ha]; exact hb
        · omega
      · cases hb
    | cons a l ih =>
      intro s ha hb
      simp only [List.foldl_cons]
      by_cases hc : norm (combo L (a + 1)) < s.2 ∧ norm (combo L (a + 1)) ≠ 0
      · rw [if_pos hc]
        apply ih
        · left; rfl
        · rcases hb with hb | hb
          · left; exact hc.1.le.trans hb
          · rcases List.mem_cons.1 hb with hb | hb
            · left
              have : a + 1 = c := by omega
              rw [this]
            · right; exact hb
      · rw [if_neg hc]
        apply ih _ ha
        rcases hb with hb | hb
        · left; exact hb
        · rcases List.mem_cons.1 hb with hb | hb
          · left
            have : a + 1 = c := by omega
            rw [this] at hc
            by_contra h
            exact hc ⟨not_le.1 h, hne⟩
          · right; exact hb
  exact key _ _ (Or.inr hlt) (Or.inr (List.mem_range.2 (by omega)))

theorem sq_expand {L : Mat n} {μ : Matrix (Fin n) (Fin n) ℚ} {B : Fin n → ℚ}
    (hG : ∀ i j, ∑ k, (L i k : ℚ) * L j k = ∑ k, μ i k * B k * μ j k) (r : Vec n) :
    ∑ k, (((r ᵥ* L) k : ℤ) : ℚ) ^ 2 = ∑ k, B k * (∑ i, (r i : ℚ) * μ i k) ^ 2 := by
  have e1 : ∀ k, (((r ᵥ* L) k : ℤ) : ℚ) ^ 2 = ∑ i, ∑ j, (r i : ℚ) * r j * ((L i k : ℚ) * L j k) := by
    intro k
    simp only [vecMul, dotProduct]
    push_cast
    rw [sq, Finset.sum_mul_sum]
    exact Finset.sum_congr rfl fun i _ => Finset.sum_congr rfl fun j _ => by ring
  have e2 : ∀ k, B k * (∑ i, (r i : ℚ) * μ i k) ^ 2 = ∑ i, ∑ j, (r i : ℚ) * r j * (μ i k * B k * μ j k) := by
    intro k
    rw [sq, Finset.sum_mul_sum, Finset.mul_sum]
    refine Finset.sum_congr rfl fun i _ => ?_
    rw [Finset.mul_sum]
    exact Finset.sum_congr rfl fun j _ => by ring
  simp only [e1, e2]
  rw [Finset.sum_comm]
  conv_rhs => rw [Finset.sum_comm]
  refine Finset.sum_congr rfl fun i _ => ?_
  rw [Finset.sum_comm]
  conv_rhs => rw [Finset.sum_comm]
  refine Finset.sum_congr rfl fun j _ => ?_
  rw [← Finset.mul_sum, ← Finset.mul_sum, hG]

theorem abs_lt_of_sq {a b : ℚ} (hb : 0 ≤ b) (h : a ^ 2 ≤ b ^ 2) : |a| ≤ b := abs_le_of_sq_le_sq h hb

/-- The coefficients of a vector of length at most 2 with respect to a reduced basis of dimension 4 without vectors shorter than 2. -/
theorem coeffs4 {L : Mat 4} (hr : Reduced L) (hB : 2 ≤ norm (L 0)) (r : Vec 4) (hx : ∑ k, (((r ᵥ* L) k : ℤ) : ℚ) ^ 2 ≤ 4) :
    ∀ j, -5 ≤ r j ∧ r j ≤ 4 := by
  obtain ⟨μ, B, h1, h2, h3, hpos, hG, hL⟩ := hr
  have hB0 : 4 ≤ B 0 := by
    rw [← B_first h1 h2 hG]
    refine le_trans ?_ (norm_sq_le _)
    have : (2 : ℚ) ≤ ((norm (L 0) : ℤ) : ℚ) := by exact_mod_cast hB
    nlinarith
  rw [sq_expand hG] at hx
  have hk : ∀ k : Fin 4, (3 / 4 : ℚ) ^ k.val * (∑ i, (r i : ℚ) * μ i k) ^ 2 ≤ 1 := by
    intro k
    have hg := B_growth h3 hpos hL k
    have hs : B k * (∑ i, (r i : ℚ) * μ i k) ^ 2 ≤ 4 :=
      (Finset.single_le_sum (f := fun k => B k * (∑ i, (r i : ℚ) * μ i k) ^ 2)
        (fun k _ => mul_nonneg (hpos k).le (sq_nonneg _)) (Finset.mem_univ k)).trans hx
    have hp : (0 : ℚ) < (3 / 4) ^ k.val := by positivity
    have hq := sq_nonneg (∑ i, (r i : ℚ) * μ i k)
    have : (3 / 4 : ℚ) ^ k.val * 4 * (∑ i, (r i : ℚ) * μ i k) ^ 2 ≤ 4 := by
      refine le_trans (mul_le_mul_of_nonneg_right ?_ hq) hs
      exact le_trans (mul_le_mul_of_nonneg_left hB0 hp.le) hg
    linarith
  have k3 := hk 3
  have k2 := hk 2
  have k1 := hk 1
  have k0 := hk 0
  simp only [Fin.sum_univ_four, h1, h2 0 1 (by decide), h2 0 2 (by decide), h2 0 3 (by decide), h2 1 2 (by decide),
    h2 1 3 (by decide), h2 2 3 (by decide), mul_zero, zero_add, mul_one, add_zero] at k0 k1 k2 k3
  have b3 : |(r 3 : ℚ)| ≤ 16 / 10 := by
    apply abs_lt_of_sq (by norm_num)
    simp at k3
    nlinarith
  have b2 : |(r 2 : ℚ) + r 3 * μ 3 2| ≤ 4 / 3 := by
    apply abs_lt_of_sq (by norm_num)
    simp at k2
    nlinarith
  have b1 : |(r 1 : ℚ) + r 2 * μ 2 1 + r 3 * μ 3 1| ≤ 7 / 6 := by
    apply abs_lt_of_sq (by norm_num)
    simp at k1
    nlinarith
  have b0 : |(r 0 : ℚ) + r 1 * μ 1 0 + r 2 * μ 2 0 + r 3 * μ 3 0| ≤ 1 := by
    simp at k0
    exact k0
  have bd : ∀ (a : ℤ) (c : ℕ) (i j : Fin 4), j < i → |a| ≤ c → |(a : ℚ) * μ i j| ≤ c / 2 := by
    intro a c i j hij ha
    rw [abs_mul]
    have h := h3 i j hij
    have h' : |(a : ℚ)| ≤ c := by exact_mod_cast ha
    have := abs_nonneg (μ i j)
    have := abs_nonneg (a : ℚ)
    nlinarith
  have up : ∀ (a : ℤ) (c : ℕ) (q : ℚ), |(a : ℚ)| ≤ q → q < c + 1 → |a| ≤ c := by
    intro a c q h1 h2
    have : |(a : ℚ)| < c + 1 := h1.trans_lt h2
    have : |a| < c + 1 := by exact_mod_cast this
    omega
  have r3 := up (r 3) 1 _ b3 (by norm_num)
  have t32 := bd (r 3) 1 3 2 (by decide) r3
  have t31 := bd (r 3) 1 3 1 (by decide) r3
  have t30 := bd (r 3) 1 3 0 (by decide) r3
  have r2 : |r 2| ≤ 1 := by
    apply up (r 2) 1 (4 / 3 + 1 / 2) _ (by norm_num)
    rw [abs_le] at b2 t32 ⊢
    push_cast at t32
    constructor <;> linarith
  have t21 := bd (r 2) 1 2 1 (by decide) r2
  have t20 := bd (r 2) 1 2 0 (by decide) r2
  have r1 : |r 1| ≤ 2 := by
    apply up (r 1) 2 (7 / 6 + 1 / 2 + 1 / 2) _ (by norm_num)
    rw [abs_le] at b1 t31 t21 ⊢
    push_cast at t31 t21
    constructor <;> linarith
  have t10 := bd (r 1) 2 1 0 (by decide) r1
  have r0 : |r 0| ≤ 3 := by
    apply up (r 0) 3 3 _ (by norm_num)
    rw [abs_le] at b0 t30 t20 t10 ⊢
    push_cast at t30 t20 t10
    constructor <;> linarith
  rw [abs_le] at r0 r1 r2 r3
  intro j
  fin_cases j
  · simp only [Fin.zero_eta]; constructor <;> omega
  · simp only [Fin.mk_one]; constructor <;> omega
  · show -5 ≤ r 2 ∧ r 2 ≤ 4
    constructor <;> omega
  · show -5 ≤ r 3 ∧ r 3 ≤ 4
    constructor <;> omega

theorem omega2_dets [NeZero n] (N : Ntl n) (hN : N.Ok) {C : Cone n} (hC : Wf C) {dual : Mat n} (h : createFacetMatrix C = some dual)
    (i : Fin n) : |detsOf C.rays (computeOmega2 N dual) i| ≤
      norm (searchShort (N.lll (-dual.transpose)).1 ((N.lll (-dual.transpose)).1 (shortIndex (N.lll (-dual.transpose)).1))) := by
  set LL : Mat n := -dual.transpose with hLL
  have hs : ∃ w : Vec n, w ᵥ* (N.lll LL).1 = searchShort (N.lll LL).1 ((N.lll LL).1 (shortIndex (N.lll LL).1)) := by
    rcases searchShort_min (N.lll LL).1 ((N.lll LL).1 (shortIndex (N.lll LL).1)) with e | ⟨c, -, -, e, -⟩
    · rw [e]
      exact ⟨Pi.single _ 1, by rw [Matrix.single_one_vecMul]; rfl⟩
    · rw [e, combo_eq]
      exact ⟨_, rfl⟩
  obtain ⟨w, hw⟩ := hs
  have hsol := hN.solve LL (searchShort (N.lll LL).1 ((N.lll LL).1 (shortIndex (N.lll LL).1)))
    ⟨w ᵥ* (N.lll LL).2, by rw [vecMul_vecMul, ← hN.lll_mul, hw]⟩
  rw [← vecMul_facetMatrix hC h, ← hLL]
  have : computeOmega2 N dual ᵥ* LL = searchShort (N.lll LL).1 ((N.lll LL).1 (shortIndex (N.lll LL).1)) := by
    unfold computeOmega2
    simp only [← hLL]
    exact hsol
  rw [this]
  exact abs_le_norm _ i

/-- Dimension 4, determinant 2: the search over combinations with coefficients -5, …, 4 succeeds if the first attempt did not. -/
theorem second_attempt (N : Ntl 4) (hN : N.Ok) (hR : N.Reduces) {C : Cone 4} (hC : Wf C) (hd : C.determinant.natAbs = 2) {dual : Mat 4}
    (h : createFacetMatrix C = some dual) (h1 : ¬ decreases C.rays C.determinant (computeOmega0 N dual)) :
    decreases C.rays C.determinant (computeOmega2 N dual) := by
  have hdet0 := det_facetMatrix hC h (by norm_num)
  rw [hd] at hdet0
  have hne : (-dual.transpose).det ≠ 0 := by
    intro h0
    rw [h0] at hdet0
    norm_num at hdet0
  have hred := hR _ hne
  have hdet : (N.lll (-dual.transpose)).1.det.natAbs = 8 := by
    rw [hN.lll_mul, det_mul, Int.natAbs_mul, Int.natAbs_of_isUnit (hN.lll_unimodular _), one_mul, hdet0]
    norm_num
  have hrow : 2 ≤ norm ((N.lll (-dual.transpose)).1 0) := by
    by_contra hc
    apply h1
    intro i
    have := omega0_dets N hN hC h i
    rw [Int.abs_eq_natAbs C.determinant, hd]
    push_cast
    omega
  obtain ⟨r, hr0, hr⟩ := minkowski (by norm_num) (N.lll (-dual.transpose)).1 (by intro h0; rw [h0] at hdet; norm_num at hdet)
  rw [hdet] at hr
  have hnorm : norm (r ᵥ* (N.lll (-dual.transpose)).1) ≤ 1 := by
    by_contra hc
    have h2 : 2 ≤ (norm (r ᵥ* (N.lll (-dual.transpose)).1)).natAbs := by omega
    have := Nat.pow_le_pow_left h2 4
    norm_num at this
    omega
  have hx : ∑ k, (((r ᵥ* (N.lll (-dual.transpose)).1) k : ℤ) : ℚ) ^ 2 ≤ 4 := by
    have : ∀ k, (((r ᵥ* (N.lll (-dual.transpose)).1) k : ℤ) : ℚ) ^ 2 ≤ 1 := by
      intro k
      have h2 := (abs_le_norm (r ᵥ* (N.lll (-dual.transpose)).1) k).trans hnorm
      rw [sq_le_one_iff_abs_le_one]
      exact_mod_cast h2
    calc _ ≤ ∑ _k : Fin 4, (1 : ℚ) := Finset.sum_le_sum fun k _ => this k
      _ = 4 := by simp
  have hco := coeffs4 hred hrow r hx
  obtain ⟨c, hc, hdig⟩ := exists_count r hco
  have hcombo : combo (N.lll (-dual.transpose)).1 c = r ᵥ* (N.lll (-dual.transpose)).1 := by
    rw [combo_eq]
    congr 1
    funext j
    exact hdig j
  have hne' : r ᵥ* (N.lll (-dual.transpose)).1 ≠ 0 := by
    intro h0
    exact hr0 (Matrix.eq_zero_of_vecMul_eq_zero (by intro h0; rw [h0] at hdet; norm_num at hdet) h0)
  have hc1 : 1 ≤ c := by
    rcases Nat.eq_zero_or_pos c with e | e
    · exfalso
      have hall : ∀ j, r j = -5 := fun j => by rw [← hdig j]; exact digit_zero_count c e j
      have hx' := coeffs4 hred hrow (-r) (by
        refine le_of_eq_of_le ?_ hx
        refine Finset.sum_congr rfl fun k _ => ?_
        rw [Matrix.neg_vecMul]
        simp) 0
      have := hall 0
      simp only [Pi.neg_apply] at hx'
      omega
    · exact e
  have hle := searchShort_le (N.lll (-dual.transpose)).1 ((N.lll (-dual.transpose)).1 (shortIndex (N.lll (-dual.transpose)).1)) c hc1 hc
    (by rw [hcombo]; exact norm_ne hne') (by rw [hcombo]; omega)
  rw [hcombo] at hle
  intro i
  have := omega2_dets N hN hC h i
  rw [Int.abs_eq_natAbs C.determinant, hd]
  push_cast
  omega

/-! ### Main results -/

/-- **C17** From NTL's contract: `barvinokStep` finds a vector for every cone of determinant `d` with `(4/3)^(n(n-1)/2) < d²`, in the first attempt,
and every new determinant `d'` satisfies `d'^(2n) ≤ (4/3)^(n(n-1)/2) d^(2(n-1))`. -/
theorem c17_step_large [NeZero n] (N : Ntl n) (hN : N.Ok) (hR : N.Reduces) {C : Cone n} (hC : Wf C)
    (hd : 4 ^ (n * (n - 1) / 2) < 3 ^ (n * (n - 1) / 2) * C.determinant.natAbs ^ 2) :
    ∃ Z, chooseOmega N C = some Z ∧ ∀ i, (detsOf C.rays Z i).natAbs ^ (2 * n) * 3 ^ (n * (n - 1) / 2) ≤
      4 ^ (n * (n - 1) / 2) * C.determinant.natAbs ^ (2 * (n - 1)) := by
  obtain ⟨dual, h⟩ := facetMatrix_some hC
  refine ⟨_, choose_of_first N h (first_attempt N hN hR hC hd h), fun i => ?_⟩
  have := omega0_bound N hN hR hC h i
  unfold checkOmega
  simp only
  split
  · rw [detsOf_neg, Int.natAbs_neg]; exact this
  · exact this

/-- **C17** In dimension at most 4 the assertion of `barvinokStep` never fails: for every cone that is not unimodular one of the two
attempts finds a vector that makes all determinants smaller. -/
theorem c17_step_dim_le_four [NeZero n] (hn : n ≤ 4) (N : Ntl n) (hN : N.Ok) (hR : N.Reduces) {C : Cone n} (hC : Wf C)
    (hd : 1 < |C.determinant|) : (chooseOmega N C).isSome = true := by
  have hd2 : 2 ≤ C.determinant.natAbs := by
    rw [Int.abs_eq_natAbs] at hd
    omega
  obtain ⟨dual, h⟩ := facetMatrix_some hC
  have large : 4 ^ (n * (n - 1) / 2) < 3 ^ (n * (n - 1) / 2) * C.determinant.natAbs ^ 2 → (chooseOmega N C).isSome = true := by
    intro hl
    rw [choose_of_first N h (first_attempt N hN hR hC hl h)]
    rfl
  have hsq : 4 ≤ C.determinant.natAbs ^ 2 := by nlinarith
  have h0 : n ≠ 0 := NeZero.ne n
  have hcase : n = 1 ∨ n = 2 ∨ n = 3 ∨ n = 4 := by omega
  rcases hcase with rfl | rfl | rfl | rfl
  · apply large; norm_num; omega
  · apply large; norm_num; omega
  · apply large; norm_num; omega
  · by_cases h3 : 3 ≤ C.determinant.natAbs
    · apply large
      have : 9 ≤ C.determinant.natAbs ^ 2 := by nlinarith
      norm_num
      omega
    · by_cases hdec : decreases C.rays C.determinant (computeOmega0 N dual)
      · rw [choose_of_first N h hdec]; rfl
      · exact choose_of_second N h (second_attempt N hN hR hC (by omega) h hdec)

/-- **C17** In every dimension a suitable vector exists, with `d'^n ≤ d^(n-1)` for all new determinants. -/
theorem c17_vector_exists [NeZero n] {C : Cone n} (hC : Wf C) :
    ∃ Z : Vec n, Z ≠ 0 ∧ ∀ i, (detsOf C.rays Z i).natAbs ^ n ≤ C.determinant.natAbs ^ (n - 1) := by
  have hpos : 0 < n := Nat.pos_of_ne_zero (NeZero.ne n)
  obtain ⟨dual, h⟩ := facetMatrix_some hC
  have hdet0 := det_facetMatrix hC h hpos
  have hne : (-dual.transpose).det ≠ 0 := by
    intro h0
    rw [h0, Int.natAbs_zero] at hdet0
    have hd : C.determinant ≠ 0 := by rw [hC.det_eq]; exact hC.det_ne
    exact pow_ne_zero _ (Int.natAbs_ne_zero.2 hd) hdet0.symm
  obtain ⟨Z, hZ, hb⟩ := minkowski hpos _ hne
  refine ⟨Z, hZ, fun i => ?_⟩
  rw [← hdet0, ← vecMul_facetMatrix hC h]
  refine le_trans (Nat.pow_le_pow_left ?_ n) hb
  have := abs_le_norm (Z ᵥ* (-dual.transpose)) i
  rw [Int.abs_eq_natAbs] at this
  omega

/-- The first row returned by the lattice reduction is a shortest vector of the lattice (maximum norm). -/
def Ntl.ShortestRow [NeZero n] (N : Ntl n) : Prop :=
  ∀ L, L.det ≠ 0 → ∀ x : Vec n, x ≠ 0 → norm ((N.lll L).1 0) ≤ norm (x ᵥ* L)

/-- **C17** If the first basis vector is a shortest one, the first attempt always succeeds and all new determinants satisfy `d'^n ≤ d^(n-1)`. -/
theorem c17_step_shortest [NeZero n] (N : Ntl n) (hN : N.Ok) (hS : N.ShortestRow) {C : Cone n} (hC : Wf C)
    (hd : 1 < |C.determinant|) :
    ∃ Z, chooseOmega N C = some Z ∧ ∀ i, (detsOf C.rays Z i).natAbs ^ n ≤ C.determinant.natAbs ^ (n - 1) := by
  have hpos : 0 < n := Nat.pos_of_ne_zero (NeZero.ne n)
  have hd2 : 2 ≤ C.determinant.natAbs := by
    rw [Int.abs_eq_natAbs] at hd
    omega
  obtain ⟨dual, h⟩ := facetMatrix_some hC
  have hdet0 := det_facetMatrix hC h hpos
  have hne : (-dual.transpose).det ≠ 0 := by
    intro h0
    rw [h0, Int.natAbs_zero] at hdet0
    exact pow_ne_zero _ (by omega) hdet0.symm
  obtain ⟨x, hx, hb⟩ := minkowski hpos _ hne
  rw [hdet0] at hb
  have hbound : ∀ i, (detsOf C.rays (computeOmega0 N dual) i).natAbs ^ n ≤ C.determinant.natAbs ^ (n - 1) := by
    intro i
    refine le_trans (Nat.pow_le_pow_left ?_ n) hb
    have h1 := omega0_dets N hN hC h i
    have h2 := hS _ hne x hx
    rw [Int.abs_eq_natAbs] at h1
    omega
  have hdec : decreases C.rays C.determinant (computeOmega0 N dual) := by
    intro i
    rw [Int.abs_eq_natAbs, Int.abs_eq_natAbs]
    have hlt : (detsOf C.rays (computeOmega0 N dual) i).natAbs ^ n < C.determinant.natAbs ^ n :=
      (hbound i).trans_lt (Nat.pow_lt_pow_right (by omega) (by omega))
    exact_mod_cast lt_of_pow_lt_pow_left₀ n (Nat.zero_le _) hlt
  refine ⟨_, choose_of_first N h hdec, fun i => ?_⟩
  unfold checkOmega
  simp only
  split
  · rw [detsOf_neg, Int.natAbs_neg]; exact hbound i
  · exact hbound i

end Verif.Barvinok
