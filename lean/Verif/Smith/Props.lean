import Verif.Smith.Lemmas

/-!
# Smith normal form: the properties (C14)
-/

namespace Verif.Smith

open Matrix

variable {m : ℕ}

/-- The extended gcd of Mathlib satisfies the contract of NTL's `XGCD`. -/
def stdX : Xgcd where
  f a b := (Int.gcd a b, Int.gcdA a b, Int.gcdB a b)
  gcd _ _ := rfl
  bezout a b := (Int.gcd_eq_gcd_ab a b).symm

/-- What a caller of `SmithNormalFormIlio(M, L, R)` may rely on, in terms of the returned matrices
only (`D` is the returned matrix). -/
structure Contract (M D L R : Mat m) : Prop where
  /-- the left transformation is invertible over the integers -/
  unitL : L.det = 1 ∨ L.det = -1
  /-- the right transformation is invertible over the integers -/
  unitR : R.det = 1 ∨ R.det = -1
  /-- the diagonal is positive -/
  pos : ∀ j, 0 < D j j
  /-- each diagonal entry divides all later ones -/
  chain : ∀ i j, i ≤ j → D i i ∣ D j j
  /-- the product of the diagonal entries is the index of the lattice -/
  prod : ∏ j, D j j = |M.det|
  /-- column `j` of `M * R` is divisible by the `j`-th diagonal entry -/
  cols : ∀ i j, D j j ∣ (M * R) i j

/-- The relation between input and working matrices that every step must keep. -/
def Related (M A L R : Mat m) : Prop :=
  L * M * R = A ∧ (L.det = 1 ∨ L.det = -1) ∧ (R.det = 1 ∨ R.det = -1)

theorem related_iff (M : Mat m) (s : St m) : Related M s.A s.L s.R ↔ Inv M s := by
  simp only [Related, ← Int.isUnit_iff]
  exact ⟨fun h => ⟨h.1, h.2.1, h.2.2⟩, fun h => ⟨h.eq, h.unitL, h.unitR⟩⟩

/-- **C14, single steps.** Every elementary step of the diagonalization keeps the relation
`L * M * R = A` with unimodular `L`, `R`, from every state that satisfies it. -/
theorem c14_steps (X : Xgcd) (M : Mat m) (o : Fin m) (a : Fin (m + 1)) (s : St m)
    (h : Related M s.A s.L s.R) :
    Related M (elimRow X o s.A s.R).1 s.L (elimRow X o s.A s.R).2 ∧
    Related M (elimCol X o s.A s.L).1 (elimCol X o s.A s.L).2 s.R ∧
    Related M (fixSign a s).A (fixSign a s).L (fixSign a s).R ∧
    Related M (clearRow o s).A (clearRow o s).L (clearRow o s).R := by
  have hi := (related_iff M s).mp h
  exact ⟨(related_iff M ⟨_, _, _⟩).mpr (hi.col (rowOp_colOp X o s.A)),
    (related_iff M ⟨_, _, _⟩).mpr (hi.row (rowOp_colOp X o s.A.transpose)),
    (related_iff M _).mpr (inv_fixSign a hi), (related_iff M _).mpr (inv_clearRow o hi)⟩

example (M : Mat m) : Related M M 1 1 := by simp [Related]

/-- **C14, diagonalization.** Every matrix, singular or not, every behaviour of `XGCD`: the do-while
loops end, and the result is `L * M * R` for unimodular `L` and `R`. -/
theorem c14_diagonalize_factorization (X : Xgcd) (M : Mat m) :
    let s := diagonalize X ⟨M, 1, 1⟩
    Related M s.A s.L s.R := by
  have h := inv_diagonalize X M
  exact ⟨h.eq, Int.isUnit_iff.mp h.unitL, Int.isUnit_iff.mp h.unitR⟩

/-- For a non-singular matrix the result of the diagonalization is lower triangular with a positive
diagonal whose entries divide their columns. -/
theorem c14_diagonalize_triangular (X : Xgcd) (M : Mat m) (hM : M.det ≠ 0) :
    let s := diagonalize X ⟨M, 1, 1⟩
    (∀ i, 0 < s.A i i) ∧ (∀ i c, i < c → s.A i c = 0) ∧ ∀ i r, s.A i i ∣ s.A r i := by
  have h := done_diagonalize X M hM
  exact ⟨fun i => (h i i.isLt).1, fun i => (h i i.isLt).2.1, fun i => (h i i.isLt).2.2⟩

theorem smith_spec (X : Xgcd) (M : Mat m) (hM : M.det ≠ 0) :
    Usable M (smith X M) ∧ ∀ i j, i < j → (smith X M).A i i ∣ (smith X M).A j j := by
  have h := foldl_finRange_ind (n := m + 1) (pairRow X)
    (fun k s => Usable M s ∧ ∀ a : Fin (m + 1), a.val < k → ∀ b, a < b → s.A a a ∣ s.A b b)
    (diagonalize X ⟨M, 1, 1⟩) ⟨usable_diagonalize X M hM, fun a ha => absurd ha (by omega)⟩
    (fun o s hs => by
      obtain ⟨h1, h2⟩ := pairRow_spec X o hs.1 (fun a ha => hs.2 a ha)
      exact ⟨h1, fun a ha b hb => h2 a (Or.inr (Fin.le_def.mpr (by omega))) b hb⟩)
  exact ⟨h.1, fun i j hij => h.2 i i.isLt j hij⟩

/-- **C14 (the part that holds).** For every non-singular matrix and every behaviour of `XGCD`
the returned `D`, `L`, `R` satisfy the contract. Missing from the full property: `L * M * R = D`
and `D` diagonal, which fail (`c14_not_diagonal`, `c14_not_factorization`). -/
theorem c14_smith_partial (X : Xgcd) (M : Mat m) (hM : M.det ≠ 0) :
    Contract M (smith X M).A (smith X M).L (smith X M).R := by
  obtain ⟨h, hc⟩ := smith_spec X M hM
  refine ⟨Int.isUnit_iff.mp h.unitL, Int.isUnit_iff.mp h.unitR, h.pos, fun i j hij => ?_, h.prod,
    h.dvd⟩
  rcases eq_or_lt_of_le hij with rfl | hij
  · exact dvd_rfl
  · exact hc i j hij

/-- The contract determines the quotient group: the integer vectors modulo the lattice spanned by
the columns of `M` are exactly represented by the combinations of the columns of
`M * R * D⁻¹`... stated without division: `w j = (M R)_j / d_j` are integer vectors, and every integer
vector is, modulo the columns of `M`, the sum of `n_j w_j` for a unique choice of
`0 ≤ n_j < d_j`. -/
def colQuot (M D R : Mat m) : Mat m := fun i j => (M * R) i j / D j j

theorem colQuot_mul {M D L R : Mat m} (h : Contract M D L R) (i j) :
    D j j * colQuot M D R i j = (M * R) i j := Int.mul_ediv_cancel' (h.cols i j)

/-- The quotient matrix is unimodular. -/
theorem colQuot_unit {M D L R : Mat m} (h : Contract M D L R) :
    IsUnit (colQuot M D R).det := by
  have hMR : M * R = colQuot M D R * diagonal (fun j => D j j) := by
    ext i j
    rw [mul_diagonal, ← colQuot_mul h i j, mul_comm]
  have hd := congrArg det hMR
  rw [det_mul, det_mul, det_diagonal, h.prod] at hd
  have hM : M.det ≠ 0 := by
    intro h0
    have : (0 : ℤ) < ∏ j, D j j := Finset.prod_pos fun j _ => h.pos j
    rw [h.prod, h0] at this
    simp at this
  have habs := congrArg (|·|) hd
  simp only [abs_mul, abs_abs] at habs
  have hR : |R.det| = 1 := by rcases h.unitR with h | h <;> simp [h]
  rw [hR, mul_one] at habs
  have : |(colQuot M D R).det| = 1 := by
    have hp : 0 < |M.det| := abs_pos.mpr hM
    have : |(colQuot M D R).det| * |M.det| = 1 * |M.det| := by rw [one_mul]; exact habs.symm
    exact mul_right_cancel₀ hp.ne' this
  rw [Int.isUnit_iff]
  exact (abs_eq (by norm_num)).mp this

/-- **Consequence used by the lattice point enumeration (C13).** Modulo the lattice spanned by the
columns of `M`, every integer vector is a combination of the columns of `colQuot` with
coefficients `0 ≤ n_j < d_j`, in exactly one way. -/
theorem c14_cosets (X : Xgcd) (M : Mat m) (hM : M.det ≠ 0) (v : Fin (m + 1) → ℤ) :
    ∃! n : Fin (m + 1) → ℤ, (∀ j, 0 ≤ n j ∧ n j < (smith X M).A j j) ∧
      ∃ k : Fin (m + 1) → ℤ,
        v = colQuot M (smith X M).A (smith X M).R *ᵥ n + M *ᵥ k := by
  have h := c14_smith_partial X M hM
  set D := (smith X M).A
  set L := (smith X M).L
  set R := (smith X M).R
  have hW := colQuot_unit h
  set W := colQuot M D R with hWdef
  have hMR : M * R = W * diagonal (fun j => D j j) := by
    ext i j
    rw [mul_diagonal, ← colQuot_mul h i j, mul_comm]
  have hRu : IsUnit R.det := Int.isUnit_iff.mpr h.unitR
  have hWi : W * W⁻¹ = 1 := mul_nonsing_inv W hW
  have hWi' : W⁻¹ * W = 1 := nonsing_inv_mul W hW
  have hRi : R * R⁻¹ = 1 := mul_nonsing_inv R hRu
  have hMk : ∀ k, M *ᵥ k = W *ᵥ (fun j => D j j * (R⁻¹ *ᵥ k) j) := by
    intro k
    have : M *ᵥ k = (M * R) *ᵥ (R⁻¹ *ᵥ k) := by
      rw [mulVec_mulVec, Matrix.mul_assoc, hRi, Matrix.mul_one]
    rw [this, hMR, ← mulVec_mulVec]
    congr 1
    ext j
    rw [mulVec_diagonal]
  set u := W⁻¹ *ᵥ v with hu
  have hv : v = W *ᵥ u := by rw [hu, mulVec_mulVec, hWi, one_mulVec]
  refine ⟨fun j => u j % D j j, ⟨fun j => ⟨Int.emod_nonneg _ (h.pos j).ne',
    Int.emod_lt_of_pos _ (h.pos j)⟩, R *ᵥ fun j => u j / D j j, ?_⟩, ?_⟩
  · have hRR : R⁻¹ * R = 1 := nonsing_inv_mul R hRu
    rw [hMk, mulVec_mulVec, hRR, one_mulVec, ← mulVec_add]
    conv_lhs => rw [hv]
    congr 1
    ext j
    exact (Int.emod_add_mul_ediv _ _).symm
  · rintro n ⟨hn, k, hk⟩
    have : u = fun j => n j + D j j * (R⁻¹ *ᵥ k) j := by
      rw [hu, hk, hMk, ← mulVec_add, mulVec_mulVec, hWi', one_mulVec]
      rfl
    ext j
    rw [this]
    simp only
    rw [Int.add_mul_emod_self_left, Int.emod_eq_of_lt (hn j).1 (hn j).2]

/-! ## The code does not return a diagonal matrix -/

/-- A 2×2 matrix of determinant -16. -/
def ex2 : Mat 1 := !![-4, 0; -4, 4]

example : ex2.det ≠ 0 := by decide +kernel

example : Contract ex2 (smith stdX ex2).A (smith stdX ex2).L (smith stdX ex2).R :=
  c14_smith_partial stdX ex2 (by decide +kernel)

/-- **Violation.** With a valid `XGCD`, the returned matrix is not diagonal although the input is
non-singular. -/
theorem c14_not_diagonal : (smith stdX ex2).A 1 0 = -8 := by decide +kernel

/-- **Violation.** It is not `L * M * R` either: the second phase assumes a diagonal matrix. -/
theorem c14_not_factorization :
    ((smith stdX ex2).L * ex2 * (smith stdX ex2).R) 1 0 ≠ (smith stdX ex2).A 1 0 := by
  decide +kernel

end Verif.Smith
