import Verif.Smith.Model
import Mathlib.LinearAlgebra.Matrix.Block
import Mathlib.Tactic.Push
import Mathlib.Tactic.LinearCombination

/-!
# Smith normal form: invariants
-/

namespace Verif.Smith

open Matrix

variable {m : ℕ}

/-! ## Column operations -/

/-- A column operation: it commutes with multiplication from the left and is invertible over the
integers. -/
structure ColOp (f : Mat m → Mat m) : Prop where
  mul : ∀ N M, f (N * M) = N * f M
  unit : IsUnit (f 1).det

theorem ColOp.eq_mul {f : Mat m → Mat m} (h : ColOp f) (M : Mat m) : f M = M * f 1 := by
  rw [← h.mul, Matrix.mul_one]

theorem ColOp.unit_apply {f : Mat m → Mat m} (h : ColOp f) {M : Mat m} (hM : IsUnit M.det) :
    IsUnit (f M).det := by
  rw [h.eq_mul, det_mul]; exact hM.mul h.unit

theorem ColOp.comp {f g : Mat m → Mat m} (hf : ColOp f) (hg : ColOp g) : ColOp fun M => f (g M) :=
  ⟨fun N M => by rw [hg.mul, hf.mul], hf.unit_apply hg.unit⟩

theorem ColOp.id : ColOp (m := m) _root_.id := ⟨fun _ _ => rfl, by simp⟩

theorem ColOp.of_inv {f g : Mat m → Mat m} (hf : ∀ N M, f (N * M) = N * f M)
    (hg : ∀ N M, g (N * M) = N * g M) (h : ∀ M, g (f M) = M) : ColOp f := by
  refine ⟨hf, ?_⟩
  have h1 : f 1 * g 1 = 1 := by rw [← hg, Matrix.mul_one, h]
  have := congrArg det h1
  rw [det_mul, det_one] at this
  exact IsUnit.of_mul_eq_one _ this

theorem comb2_mul (a b : Fin (m + 1)) (p q r s : ℤ) (N M : Mat m) :
    comb2 a b p q r s (N * M) = N * comb2 a b p q r s M := by
  ext i j
  simp only [comb2, mul_apply]
  split
  · rw [Finset.mul_sum, Finset.mul_sum, ← Finset.sum_add_distrib]
    exact Finset.sum_congr rfl fun k _ => by ring
  · split
    · rw [Finset.mul_sum, Finset.mul_sum, ← Finset.sum_add_distrib]
      exact Finset.sum_congr rfl fun k _ => by ring
    · rfl

theorem comb2_colOp (a b : Fin (m + 1)) (hab : a ≠ b) (p q r s e : ℤ) (he : e * e = 1)
    (hdet : p * s - q * r = e) : ColOp (comb2 (m := m) a b p q r s) := by
  refine ColOp.of_inv (comb2_mul a b p q r s) (g := comb2 a b (e * s) (-(e * q)) (-(e * r)) (e * p))
    (comb2_mul _ _ _ _ _ _) fun M => ?_
  ext i j
  simp only [comb2, if_true, if_neg hab.symm]
  have h1 : e * (p * s - q * r) = 1 := by rw [hdet, he]
  by_cases hj : j = a
  · subst hj
    simp only [if_true]
    linear_combination (M i j) * h1
  · by_cases hj2 : j = b
    · subst hj2
      simp only [if_neg hj, if_true]
      linear_combination (M i j) * h1
    · simp only [if_neg hj, if_neg hj2]

theorem addCols_mul (a : Fin (m + 1)) (t : Fin (m + 1) → ℤ) (N M : Mat m) :
    addCols a t (N * M) = N * addCols a t M := by
  ext i j
  simp only [addCols, mul_apply]
  split
  · simp only [mul_add, Finset.sum_add_distrib, Finset.mul_sum]
    congr 1
    rw [Finset.sum_comm]
    exact Finset.sum_congr rfl fun k _ => Finset.sum_congr rfl fun l _ => by ring
  · rfl

theorem addCols_colOp (a : Fin (m + 1)) (t : Fin (m + 1) → ℤ) (ht : t a = 0) :
    ColOp (addCols (m := m) a t) := by
  refine ColOp.of_inv (addCols_mul a t) (g := addCols a fun c => -t c) (addCols_mul _ _) fun M => ?_
  ext i j
  simp only [addCols]
  by_cases hj : j = a
  · subst hj
    simp only [if_true]
    have : ∀ c, -t c * (if c = j then M i j + ∑ c, t c * M i c else M i c) = -(t c * M i c) := by
      intro c
      by_cases hc : c = j
      · subst hc; simp [ht]
      · simp [hc]
    simp only [this, Finset.sum_neg_distrib]
    ring
  · simp only [if_neg hj]

theorem subCols_mul (a : Fin (m + 1)) (t : Fin (m + 1) → ℤ) (N M : Mat m) :
    subCols a t (N * M) = N * subCols a t M := by
  ext i j
  simp only [subCols, mul_apply]
  split
  · rw [Finset.mul_sum, ← Finset.sum_sub_distrib]
    exact Finset.sum_congr rfl fun k _ => by ring
  · rfl

theorem subCols_colOp (a : Fin (m + 1)) (t : Fin (m + 1) → ℤ) :
    ColOp (subCols (m := m) a t) := by
  refine ColOp.of_inv (subCols_mul a t) (g := subCols a fun c => -t c) (subCols_mul _ _) fun M => ?_
  ext i j
  simp only [subCols, lt_irrefl, if_false]
  split <;> ring

theorem op1_colOp (X : Xgcd) (o : Fin m) (A : Mat m) : ColOp (op1 X o A) := by
  have hne := castSucc_ne_succ o
  unfold op1
  simp only
  split
  · rename_i ha
    split
    · exact comb2_colOp _ _ hne 0 1 1 0 (-1) (by norm_num) (by norm_num)
    · have hbz := X.bezout (A o.castSucc o.castSucc) (A o.castSucc o.succ)
      have hg := X.gcd (A o.castSucc o.castSucc) (A o.castSucc o.succ)
      set x := X.f (A o.castSucc o.castSucc) (A o.castSucc o.succ)
      have hga : x.1 ∣ A o.castSucc o.castSucc := hg ▸ Int.gcd_dvd_left ..
      have hgb : x.1 ∣ A o.castSucc o.succ := hg ▸ Int.gcd_dvd_right ..
      have hg0 : x.1 ≠ 0 := by
        intro h0
        rw [h0] at hga
        exact ha (zero_dvd_iff.mp hga)
      obtain ⟨a', ha'⟩ := hga
      obtain ⟨b', hb'⟩ := hgb
      refine comb2_colOp _ _ hne _ _ _ _ 1 (by norm_num) ?_
      rw [ha', hb', Int.mul_ediv_cancel_left _ hg0, ← mul_neg, Int.mul_ediv_cancel_left _ hg0]
      apply mul_left_cancel₀ hg0
      rw [ha', hb'] at hbz
      linear_combination hbz
  · exact ColOp.id

/-- The composed column operation of `eliminationRow`. -/
def rowOp (X : Xgcd) (o : Fin m) (A : Mat m) (M : Mat m) : Mat m :=
  let A1 := op1 X o A A
  let gt := coeffs X (A1 o.castSucc) (after o)
  subCols o.castSucc (tmpRow o gt.1 (addCols o.castSucc gt.2 A1))
    (addCols o.castSucc gt.2 (op1 X o A M))

theorem elimRow_eq (X : Xgcd) (o : Fin m) (A R : Mat m) :
    elimRow X o A R = (rowOp X o A A, rowOp X o A R) := rfl

theorem coeffs_pivot (X : Xgcd) (o : Fin m) (row : Fin (m + 1) → ℤ) (c : Fin (m + 1))
    (hc : c ≤ o.castSucc) : (coeffs X row (after o)).2 c = 0 :=
  (coeffs_spec X row (after o) (after_nodup o)).1 c fun h =>
    absurd ((mem_after o c).mp h) (not_lt.mpr hc)

theorem rowOp_colOp (X : Xgcd) (o : Fin m) (A : Mat m) : ColOp (rowOp X o A) :=
  (subCols_colOp _ _).comp
    ((addCols_colOp _ _ (coeffs_pivot X o _ _ le_rfl)).comp (op1_colOp X o A))

/-! ## The invariant `L * M * R = A` -/

/-- The invariant of the diagonalization. -/
structure Inv (M : Mat m) (s : St m) : Prop where
  eq : s.L * M * s.R = s.A
  unitL : IsUnit s.L.det
  unitR : IsUnit s.R.det

theorem Inv.col {M : Mat m} {s : St m} (h : Inv M s) {f : Mat m → Mat m} (hf : ColOp f) :
    Inv M ⟨f s.A, s.L, f s.R⟩ :=
  ⟨by rw [← h.eq, hf.mul], h.unitL, hf.unit_apply h.unitR⟩

theorem Inv.row {M : Mat m} {s : St m} (h : Inv M s) {f : Mat m → Mat m} (hf : ColOp f) :
    Inv M ⟨(f s.A.transpose).transpose, (f s.L.transpose).transpose, s.R⟩ := by
  refine ⟨?_, ?_, h.unitR⟩
  · simp only
    rw [← h.eq, transpose_mul, transpose_mul, ← Matrix.mul_assoc, hf.mul]
    simp only [transpose_mul, transpose_transpose, Matrix.mul_assoc]
  · rw [det_transpose]
    exact hf.unit_apply (by rw [det_transpose]; exact h.unitL)

theorem inv_body (X : Xgcd) (o : Fin m) {M : Mat m} {s : St m} (h : Inv M s) :
    Inv M (body X o s) := by
  have h1 := h.col (rowOp_colOp X o s.A)
  exact h1.row (rowOp_colOp X o (rowOp X o s.A s.A).transpose)

theorem inv_again (X : Xgcd) (o : Fin m) {M : Mat m} {s : St m} (hc : ¬ check o s.A)
    (h : Inv M s) : Inv M (again X o s hc) := by
  fun_induction again X o s hc with
  | case1 s hc h1 => exact inv_body X o h
  | case2 s hc h1 ih => exact ih (inv_body X o h)

theorem inv_rounds (X : Xgcd) (o : Fin m) {M : Mat m} {s : St m} (h : Inv M s) :
    Inv M (rounds X o s) := by
  unfold rounds
  split
  · exact inv_body X o h
  · exact inv_again X o _ (inv_body X o h)

/-- Negating a column. -/
def negCol (a : Fin (m + 1)) (M : Mat m) : Mat m := fun i j => if j = a then -M i j else M i j

theorem negCol_colOp (a : Fin (m + 1)) : ColOp (negCol (m := m) a) := by
  have hmul : ∀ N M : Mat m, negCol a (N * M) = N * negCol a M := by
    intro N M
    ext i j
    simp only [negCol, mul_apply]
    split
    · simp
    · rfl
  refine ColOp.of_inv hmul hmul fun M => ?_
  ext i j
  simp only [negCol]
  split <;> simp

theorem negRow_eq (a : Fin (m + 1)) (M : Mat m) :
    negRow a M = (negCol a M.transpose).transpose := by
  ext i j
  simp [negRow, negCol]

theorem inv_fixSign (a : Fin (m + 1)) {M : Mat m} {s : St m} (h : Inv M s) :
    Inv M (fixSign a s) := by
  unfold fixSign
  split
  · rw [negRow_eq, negRow_eq]
    exact h.row (negCol_colOp a)
  · exact h

theorem inv_clearRow (o : Fin m) {M : Mat m} {s : St m} (h : Inv M s) : Inv M (clearRow o s) := by
  unfold clearRow
  split
  · exact h.col (subCols_colOp _ _)
  · exact h

theorem inv_diagStep (X : Xgcd) (o : Fin m) {M : Mat m} {s : St m} (h : Inv M s) :
    Inv M (diagStep X s o) :=
  inv_clearRow o (inv_fixSign _ (inv_rounds X o h))

/-! ## Structure of the matrix -/

theorem foldl_finRange_ind {n : ℕ} {β : Type*} (f : β → Fin n → β) (P : ℕ → β → Prop) (b : β)
    (h0 : P 0 b) (hs : ∀ (o : Fin n) (b : β), P o b → P (o + 1) (f b o)) :
    P n ((List.finRange n).foldl f b) := by
  have : ∀ k, k ≤ n → P k (((List.finRange n).take k).foldl f b) := by
    intro k
    induction k with
    | zero => intro _; simpa using h0
    | succ k ih =>
      intro hk
      have hk' : k < (List.finRange n).length := by simp; omega
      rw [List.take_add_one, List.getElem?_eq_getElem hk', List.foldl_append]
      have := hs ⟨k, by omega⟩ _ (ih (by omega))
      simpa using this
  have h := this n le_rfl
  rwa [List.take_of_length_le (by simp)] at h

/-- An operation that acts only on the columns from `o` on, by integer combinations of these. -/
structure Local (o : Fin (m + 1)) (f : Mat m → Mat m) : Prop where
  keep : ∀ M r c, c < o → f M r c = M r c
  dvd : ∀ M r d, (∀ c, o ≤ c → d ∣ M r c) → ∀ c, o ≤ c → d ∣ f M r c

theorem Local.comp {o : Fin (m + 1)} {f g : Mat m → Mat m} (hf : Local o f) (hg : Local o g) :
    Local o fun M => f (g M) :=
  ⟨fun M r c hc => by rw [hf.keep _ _ _ hc, hg.keep _ _ _ hc],
    fun M r d h => hf.dvd _ r d (hg.dvd M r d h)⟩

theorem Local.id (o : Fin (m + 1)) : Local (m := m) o _root_.id :=
  ⟨fun _ _ _ _ => rfl, fun _ _ _ h => h⟩

theorem comb2_local (o : Fin m) (p q r s : ℤ) :
    Local o.castSucc (comb2 (m := m) o.castSucc o.succ p q r s) := by
  have hlt : o.castSucc < o.succ := Fin.castSucc_lt_succ
  refine ⟨fun M i c hc => ?_, fun M i d h c hc => ?_⟩
  · simp only [comb2, if_neg hc.ne, if_neg (hc.trans hlt).ne]
  · simp only [comb2]
    split
    · exact dvd_add ((h _ le_rfl).mul_left _) ((h _ hlt.le).mul_left _)
    · split
      · exact dvd_add ((h _ le_rfl).mul_left _) ((h _ hlt.le).mul_left _)
      · exact h c hc

theorem addCols_local (o : Fin (m + 1)) (t : Fin (m + 1) → ℤ) (ht : ∀ c, c < o → t c = 0) :
    Local o (addCols (m := m) o t) := by
  refine ⟨fun M i c hc => ?_, fun M i d h c hc => ?_⟩
  · simp only [addCols, if_neg hc.ne]
  · simp only [addCols]
    split
    · refine dvd_add (h _ le_rfl) (Finset.dvd_sum fun c _ => ?_)
      by_cases hc2 : c < o
      · rw [ht c hc2, zero_mul]; exact dvd_zero d
      · exact (h c (not_lt.mp hc2)).mul_left _
    · exact h c hc

theorem subCols_local (o : Fin (m + 1)) (t : Fin (m + 1) → ℤ) :
    Local o (subCols (m := m) o t) := by
  refine ⟨fun M i c hc => ?_, fun M i d h c hc => ?_⟩
  · simp only [subCols, if_neg (not_lt.mpr hc.le)]
  · simp only [subCols]
    split
    · exact dvd_sub (h c hc) ((h _ le_rfl).mul_left _)
    · exact h c hc

theorem op1_local (X : Xgcd) (o : Fin m) (A : Mat m) : Local o.castSucc (op1 X o A) := by
  unfold op1
  simp only
  split
  · split
    · exact comb2_local o _ _ _ _
    · exact comb2_local o _ _ _ _
  · exact Local.id _

theorem rowOp_local (X : Xgcd) (o : Fin m) (A : Mat m) : Local o.castSucc (rowOp X o A) :=
  (subCols_local _ _).comp ((addCols_local _ _ fun c hc => coeffs_pivot X o _ c hc.le).comp
    (op1_local X o A))

/-- After `eliminationRow` the pivot divides its row. -/
theorem rowOp_row (X : Xgcd) (o : Fin m) (A : Mat m) (c : Fin (m + 1)) (hc : o.castSucc ≤ c) :
    rowOp X o A A o.castSucc o.castSucc ∣ rowOp X o A A o.castSucc c := by
  obtain ⟨h1, h2, h3⟩ := elimRow_pivot X o A A
  exact (rowOp_local X o A).dvd A o.castSucc _ h1 c hc

/-- What is achieved for the first `k` diagonal positions: the diagonal entry is positive, the row
is zero to its right, and the entry divides its column. -/
def Done (k : ℕ) (A : Mat m) : Prop :=
  ∀ i : Fin (m + 1), i.val < k →
    0 < A i i ∧ (∀ c, i < c → A i c = 0) ∧ ∀ r, A i i ∣ A r i

theorem Done.col {k : ℕ} {A : Mat m} (h : Done k A) {o : Fin (m + 1)} (ho : o.val = k)
    {f : Mat m → Mat m} (hf : Local o f) : Done k (f A) := by
  intro i hi
  have hio : i < o := by rw [Fin.lt_def, ho]; exact hi
  obtain ⟨h1, h2, h3⟩ := h i hi
  refine ⟨by rw [hf.keep _ _ _ hio]; exact h1, fun c hc => ?_, fun r => ?_⟩
  · by_cases hco : c < o
    · rw [hf.keep _ _ _ hco]; exact h2 c hc
    · apply zero_dvd_iff.mp
      refine hf.dvd A i 0 (fun c' hc' => ?_) c (not_lt.mp hco)
      rw [h2 c' (lt_of_lt_of_le hio hc')]
  · rw [hf.keep _ _ _ hio, hf.keep _ _ _ hio]; exact h3 r

theorem Done.row {k : ℕ} {A : Mat m} (h : Done k A) {o : Fin (m + 1)} (ho : o.val = k)
    {f : Mat m → Mat m} (hf : Local o f) : Done k (f A.transpose).transpose := by
  intro i hi
  have hio : i < o := by rw [Fin.lt_def, ho]; exact hi
  obtain ⟨h1, h2, h3⟩ := h i hi
  simp only [transpose_apply]
  refine ⟨?_, fun c hc => ?_, fun r => ?_⟩
  · rw [hf.keep _ _ _ hio]; exact h1
  · rw [hf.keep _ _ _ hio]; exact h2 c hc
  · rw [hf.keep _ _ _ hio]
    by_cases hr : r < o
    · rw [hf.keep _ _ _ hr]; exact h3 r
    · exact hf.dvd _ i _ (fun c _ => h3 c) r (not_lt.mp hr)

theorem done_body (X : Xgcd) (o : Fin m) {s : St m} (h : Done o.val s.A) :
    Done o.val (body X o s).A := by
  have h1 := h.col (o := o.castSucc) (by simp) (rowOp_local X o s.A)
  exact h1.row (o := o.castSucc) (by simp) (rowOp_local X o (rowOp X o s.A s.A).transpose)

/-- After a round the pivot divides its column (from the pivot on). -/
theorem body_col (X : Xgcd) (o : Fin m) (s : St m) (r : Fin (m + 1)) (hr : o.castSucc ≤ r) :
    (body X o s).A o.castSucc o.castSucc ∣ (body X o s).A r o.castSucc :=
  rowOp_row X o (rowOp X o s.A s.A).transpose r hr

theorem again_spec (X : Xgcd) (o : Fin m) (s : St m) (hc : ¬ check o s.A)
    (h : Done o.val s.A) :
    Done o.val (again X o s hc).A ∧ check o (again X o s hc).A ∧
      ∀ r, o.castSucc ≤ r →
        (again X o s hc).A o.castSucc o.castSucc ∣ (again X o s hc).A r o.castSucc := by
  fun_induction again X o s hc with
  | case1 s hc h1 => exact ⟨done_body X o h, h1, body_col X o s⟩
  | case2 s hc h1 ih => exact ih (done_body X o h)

theorem rounds_spec (X : Xgcd) (o : Fin m) (s : St m) (h : Done o.val s.A) :
    Done o.val (rounds X o s).A ∧ check o (rounds X o s).A ∧
      ∀ r, o.castSucc ≤ r →
        (rounds X o s).A o.castSucc o.castSucc ∣ (rounds X o s).A r o.castSucc := by
  unfold rounds
  split
  · rename_i h1
    exact ⟨done_body X o h, h1, body_col X o s⟩
  · exact again_spec X o _ _ (done_body X o h)

theorem det_ne_of_inv {M : Mat m} {s : St m} (h : Inv M s) (hM : M.det ≠ 0) : s.A.det ≠ 0 := by
  rw [← h.eq, det_mul, det_mul]
  exact mul_ne_zero (mul_ne_zero h.unitL.ne_zero hM) h.unitR.ne_zero

/-- In a non-singular matrix the pivot cannot vanish. -/
theorem pivot_ne {A : Mat m} (hA : A.det ≠ 0) (o : Fin (m + 1)) (h : Done o.val A)
    (hc : ∀ r, o ≤ r → A o o ∣ A r o) : A o o ≠ 0 := by
  intro h0
  apply hA
  apply det_eq_zero_of_column_eq_zero o
  intro r
  by_cases hr : o ≤ r
  · have := hc r hr
    rw [h0] at this
    exact zero_dvd_iff.mp this
  · have hr := not_le.mp hr
    exact (h r hr).2.1 o hr

theorem fixSign_spec {A : St m} {o : Fin (m + 1)} (h : Done o.val A.A) (h0 : A.A o o ≠ 0)
    (hc : ∀ r, o ≤ r → A.A o o ∣ A.A r o) :
    Done o.val (fixSign o A).A ∧ 0 < (fixSign o A).A o o ∧
    (∀ r, o ≤ r → (fixSign o A).A o o ∣ (fixSign o A).A r o) ∧
    (∀ d c, d ∣ A.A o c → d ∣ (fixSign o A).A o c) ∧
    (∀ d, d ∣ (fixSign o A).A o o ↔ d ∣ A.A o o) ∧
    (∀ d, (fixSign o A).A o o ∣ d ↔ A.A o o ∣ d) := by
  unfold fixSign
  split
  · rename_i hneg
    refine ⟨?_, ?_, ?_, ?_, ?_, ?_⟩
    · rw [negRow_eq]
      refine h.row rfl ⟨fun M r c hc => ?_, fun M r d h c hc => ?_⟩
      · simp [negCol, hc.ne]
      · simp only [negCol]
        split
        · exact (dvd_neg).mpr (h c hc)
        · exact h c hc
    · simp [negRow]; exact hneg
    · intro r hr
      simp only [negRow, if_true, neg_dvd]
      split
      · exact (dvd_neg).mpr (hc r hr)
      · exact hc r hr
    · intro d c hd
      simp only [negRow, if_true]
      exact (dvd_neg).mpr hd
    · intro d; simp [negRow]
    · intro d; simp [negRow]
  · rename_i hneg
    exact ⟨h, lt_of_le_of_ne (not_lt.mp hneg) (Ne.symm h0), hc, fun _ _ h => h, fun _ => Iff.rfl,
      fun _ => Iff.rfl⟩

theorem diagStep_spec (X : Xgcd) (o : Fin m) {M : Mat m} (hM : M.det ≠ 0) {s : St m}
    (hi : Inv M s) (h : Done o.val s.A) : Done (o.val + 1) (diagStep X s o).A := by
  obtain ⟨h1, h2, h3⟩ := rounds_spec X o s h
  have hdet := det_ne_of_inv (inv_rounds X o hi) hM
  have h0 := pivot_ne hdet o.castSucc h1 h3
  obtain ⟨f1, f2, f3, f4, f5, f6⟩ := fixSign_spec (o := o.castSucc) h1 h0 h3
  unfold diagStep clearRow
  rw [if_pos f2.ne']
  set t := fixSign o.castSucc (rounds X o s) with ht
  set tmp : Fin (m + 1) → ℤ := fun j => if t.A o.castSucc j ≠ 0 then
      t.A o.castSucc j / t.A o.castSucc o.castSucc else 0 with htmp
  have hdone := f1.col (o := o.castSucc) rfl (subCols_local o.castSucc tmp)
  intro i hik
  by_cases hio : i.val < o.val
  · exact hdone i hio
  · have hi_eq : i = o.castSucc := Fin.ext (by simp; omega)
    subst hi_eq
    refine ⟨?_, fun c hc => ?_, fun r => ?_⟩
    · simp only [subCols, lt_irrefl, if_false]; exact f2
    · simp only [subCols, if_pos hc]
      by_cases hz : t.A o.castSucc c = 0
      · simp [htmp, hz]
      · have : t.A o.castSucc o.castSucc ∣ t.A o.castSucc c := by
          rw [f6]
          unfold check at h2
          rcases h2 with h2 | h2
          · exact absurd h2 h0
          · have hd := Int.dvd_of_emod_eq_zero (h2 c hc)
            -- transport through the possible sign change
            have h4 := f4 _ c hd
            exact h4
        simp only [htmp, if_pos hz]
        rw [Int.ediv_mul_cancel this, sub_self]
    · simp only [subCols, lt_irrefl, if_false]
      by_cases hr : o.castSucc ≤ r
      · exact f3 r hr
      · have hr := not_le.mp hr
        rw [(f1 r hr).2.1 _ hr]
        exact dvd_zero _

theorem inv_diagonalize (X : Xgcd) (M : Mat m) : Inv M (diagonalize X ⟨M, 1, 1⟩) := by
  unfold diagonalize
  apply inv_fixSign
  refine foldl_finRange_ind (diagStep X) (fun _ s => Inv M s) _ ?_ fun o s h => inv_diagStep X o h
  exact ⟨by simp, by simp, by simp⟩

theorem done_diagonalize (X : Xgcd) (M : Mat m) (hM : M.det ≠ 0) :
    Done (m + 1) (diagonalize X ⟨M, 1, 1⟩).A := by
  have h := foldl_finRange_ind (diagStep X) (fun k s => Inv M s ∧ Done k s.A) ⟨M, 1, 1⟩
    ⟨⟨by simp, by simp, by simp⟩, fun i hi => absurd hi (by omega)⟩
    (fun o s h => ⟨inv_diagStep X o h.1, diagStep_spec X o hM h.1 h.2⟩)
  set s := (List.finRange m).foldl (diagStep X) ⟨M, 1, 1⟩ with hs
  obtain ⟨hi, hd⟩ := h
  have hd' : Done (Fin.last m).val s.A := hd
  have hcol : ∀ r, Fin.last m ≤ r → s.A (Fin.last m) (Fin.last m) ∣ s.A r (Fin.last m) := by
    intro r hr
    have : r = Fin.last m := le_antisymm (Fin.le_last r) hr
    rw [this]
  have h0 := pivot_ne (det_ne_of_inv hi hM) (Fin.last m) hd' hcol
  obtain ⟨f1, f2, f3, -⟩ := fixSign_spec hd' h0 hcol
  unfold diagonalize
  rw [← hs]
  intro i hik
  by_cases him : i.val < m
  · exact f1 i him
  · have : i = Fin.last m := Fin.ext (by simp; omega)
    subst this
    refine ⟨f2, fun c hc => absurd hc (not_lt.mpr (Fin.le_last c)), fun r => ?_⟩
    by_cases hr : Fin.last m ≤ r
    · exact f3 r hr
    · have hr := not_le.mp hr
      rw [(f1 r hr).2.1 _ hr]
      exact dvd_zero _

/-! ## The second phase -/

/-- What the lattice point enumeration needs: the diagonal is positive, divides the columns of
`M * R`, has product `|det M|`, and `L`, `R` are unimodular. -/
structure Usable (M : Mat m) (s : St m) : Prop where
  unitL : IsUnit s.L.det
  unitR : IsUnit s.R.det
  pos : ∀ j, 0 < s.A j j
  dvd : ∀ i j, s.A j j ∣ (M * s.R) i j
  prod : ∏ j, s.A j j = |M.det|

theorem usable_diagonalize (X : Xgcd) (M : Mat m) (hM : M.det ≠ 0) :
    Usable M (diagonalize X ⟨M, 1, 1⟩) := by
  have hi := inv_diagonalize X M
  have hd := done_diagonalize X M hM
  set s := diagonalize X ⟨M, 1, 1⟩
  refine ⟨hi.unitL, hi.unitR, fun j => (hd j j.isLt).1, fun i j => ?_, ?_⟩
  · have h1 : s.L.det • (M * s.R) = s.L.adjugate * s.A := by
      rw [← hi.eq, ← Matrix.mul_assoc, ← Matrix.mul_assoc, adjugate_mul, Matrix.smul_mul,
        Matrix.smul_mul, Matrix.one_mul]
    have h2 := congrFun (congrFun h1 i) j
    rw [Matrix.smul_apply, smul_eq_mul] at h2
    have h3 : s.A j j ∣ s.L.det * (M * s.R) i j := by
      rw [h2, mul_apply]
      exact Finset.dvd_sum fun k _ => ((hd j j.isLt).2.2 k).mul_left _
    exact (hi.unitL.dvd_mul_left).mp h3
  · have h1 : s.A.det = ∏ j, s.A j j := by
      apply det_of_isLowerTriangular
      intro i j hij
      exact (hd i i.isLt).2.1 j (by simpa using hij)
    have h2 : 0 < ∏ j, s.A j j := Finset.prod_pos fun j _ => (hd j j.isLt).1
    have h3 : |s.A.det| = |M.det| := by
      rw [← hi.eq, det_mul, det_mul, abs_mul, abs_mul, Int.isUnit_iff_abs_eq.mp hi.unitL,
        Int.isUnit_iff_abs_eq.mp hi.unitR]
      ring
    rw [← h3, h1, abs_of_pos h2]

theorem prod_two {n : ℕ} (f g : Fin n → ℤ) (i j : Fin n) (hij : i ≠ j)
    (h : ∀ k, k ≠ i → k ≠ j → f k = g k) (hp : f i * f j = g i * g j) : ∏ k, f k = ∏ k, g k := by
  have e : ∀ f : Fin n → ℤ, ∏ k, f k = f i * f j * ∏ k ∈ (Finset.univ.erase i).erase j, f k := by
    intro f
    rw [← Finset.mul_prod_erase Finset.univ f (Finset.mem_univ i),
      ← Finset.mul_prod_erase (Finset.univ.erase i) f (a := j) (by simp [hij.symm]), mul_assoc]
  rw [e f, e g, hp]
  congr 1
  apply Finset.prod_congr rfl
  intro k hk
  simp only [Finset.mem_erase, Finset.mem_univ, and_true] at hk
  exact h k hk.2 hk.1

theorem pairStep_diag (X : Xgcd) {M : Mat m} {s : St m} (h : Usable M s) (i j : Fin (m + 1))
    (hij : i < j) :
    (∀ k, k ≠ i → k ≠ j → (pairStep X s (i, j)).A k k = s.A k k) ∧
    (pairStep X s (i, j)).A i i = Int.gcd (s.A j j) (s.A i i) ∧
    (pairStep X s (i, j)).A j j = s.A j j / Int.gcd (s.A j j) (s.A i i) * s.A i i := by
  have hi := h.pos i
  have hj := h.pos j
  unfold pairStep
  simp only
  by_cases h1 : s.A i i = 1
  · rw [if_pos h1]
    simp [h1]
  · rw [if_neg h1, if_neg hj.ne', if_neg hi.ne']
    simp only [X.gcd]
    refine ⟨fun k hk1 hk2 => by simp [hk1, hk2], by simp, by simp [hij.ne']⟩

theorem usable_pairStep (X : Xgcd) {M : Mat m} {s : St m} (h : Usable M s) (i j : Fin (m + 1))
    (hij : i < j) : Usable M (pairStep X s (i, j)) := by
  have hi := h.pos i
  have hj := h.pos j
  obtain ⟨d1, d2, d3⟩ := pairStep_diag X h i j hij
  have hgpos : 0 < (Int.gcd (s.A j j) (s.A i i) : ℤ) := by
    exact_mod_cast Int.gcd_pos_of_ne_zero_left _ hj.ne'
  obtain ⟨di', hdi'⟩ : ((Int.gcd (s.A j j) (s.A i i) : ℕ) : ℤ) ∣ s.A i i := Int.gcd_dvd_right ..
  obtain ⟨dj', hdj'⟩ : ((Int.gcd (s.A j j) (s.A i i) : ℕ) : ℤ) ∣ s.A j j := Int.gcd_dvd_left ..
  have hdjq : s.A j j / (Int.gcd (s.A j j) (s.A i i) : ℤ) = dj' :=
    Int.ediv_eq_of_eq_mul_right hgpos.ne' hdj'
  have hpos : ∀ k, 0 < (pairStep X s (i, j)).A k k := by
    intro k
    by_cases hk1 : k = i
    · rw [hk1, d2]; exact hgpos
    · by_cases hk2 : k = j
      · rw [hk2, d3, hdjq]
        refine mul_pos ?_ hi
        exact pos_of_mul_pos_right (hdj' ▸ hj) hgpos.le
      · rw [d1 k hk1 hk2]; exact h.pos k
  have hprod : ∏ k, (pairStep X s (i, j)).A k k = |M.det| := by
    rw [← h.prod]
    refine prod_two _ _ i j hij.ne d1 ?_
    rw [d2, d3, hdjq]
    linear_combination (-s.A i i) * hdj'
  by_cases h1 : s.A i i = 1
  · have : pairStep X s (i, j) = s := by
      unfold pairStep; simp only; rw [if_pos h1]
    rw [this]; exact h
  · have hbz := X.bezout (s.A j j) (s.A i i)
    have hg := X.gcd (s.A j j) (s.A i i)
    have hL : (pairStep X s (i, j)).L =
        (comb2 i j 1 (X.f (s.A j j) (s.A i i)).2.1 (s.A j j / (X.f (s.A j j) (s.A i i)).1)
          (-1 + s.A j j / (X.f (s.A j j) (s.A i i)).1 * (X.f (s.A j j) (s.A i i)).2.1)
          s.L.transpose).transpose := by
      unfold pairStep
      simp only
      rw [if_neg h1, if_neg hj.ne', if_neg hi.ne']
      ext r c
      simp only [comb2, transpose_apply]
      split
      · ring
      · split
        · ring
        · rfl
    have hR : (pairStep X s (i, j)).R =
        comb2 i j (X.f (s.A j j) (s.A i i)).2.2 1
          (1 - s.A i i / (X.f (s.A j j) (s.A i i)).1 * (X.f (s.A j j) (s.A i i)).2.2)
          (-(s.A i i / (X.f (s.A j j) (s.A i i)).1)) s.R := by
      unfold pairStep
      simp only
      rw [if_neg h1, if_neg hj.ne', if_neg hi.ne']
      ext r c
      simp only [comb2]
      split
      · ring
      · split
        · ring
        · rfl
    refine ⟨?_, ?_, hpos, fun r k => ?_, hprod⟩
    · rw [hL, det_transpose]
      exact (comb2_colOp i j hij.ne _ _ _ _ (-1) (by norm_num) (by ring)).unit_apply
        (by rw [det_transpose]; exact h.unitL)
    · rw [hR]
      exact (comb2_colOp i j hij.ne _ _ _ _ (-1) (by norm_num) (by ring)).unit_apply h.unitR
    · rw [hR, ← comb2_mul]
      obtain ⟨wi, hwi⟩ := h.dvd r i
      obtain ⟨wj, hwj⟩ := h.dvd r j
      set x := X.f (s.A j j) (s.A i i) with hx
      have hdiq : s.A i i / x.1 = di' := by
        rw [hg]
        exact Int.ediv_eq_of_eq_mul_right hgpos.ne' hdi'
      have hgi : s.A i i = x.1 * di' := by rw [hg]; exact hdi'
      have hgj : s.A j j = x.1 * dj' := by rw [hg]; exact hdj'
      by_cases hk1 : k = i
      · subst hk1
        rw [d2, ← hg]
        simp only [comb2, if_true]
        rw [hwi, hwj]
        refine dvd_add (Dvd.dvd.mul_left ?_ _) (Dvd.dvd.mul_left ?_ _)
        · exact (Dvd.intro _ hgi.symm).mul_right _
        · exact (Dvd.intro _ hgj.symm).mul_right _
      · by_cases hk2 : k = j
        · subst hk2
          rw [d3, hdjq]
          simp only [comb2, if_neg hk1, if_true]
          rw [hwi, hwj, hdiq]
          refine ⟨x.2.1 * wi - wj, ?_⟩
          have e : x.1 = x.1 * dj' * x.2.1 + x.1 * di' * x.2.2 := by
            rw [← hgi, ← hgj, hbz]
          rw [hgi, hgj]
          linear_combination (di' * wi) * e
        · rw [d1 k hk1 hk2]
          simp only [comb2, if_neg hk1, if_neg hk2]
          exact h.dvd r k

/-- The divisibility relations established so far. -/
theorem pairRow_spec (X : Xgcd) {M : Mat m} (i : Fin (m + 1)) {s : St m} (h : Usable M s)
    (hch : ∀ a, a < i → ∀ b, a < b → s.A a a ∣ s.A b b) :
    Usable M (pairRow X s i) ∧
    ∀ a, a < i + 1 ∨ a ≤ i → ∀ b, a < b → (pairRow X s i).A a a ∣ (pairRow X s i).A b b := by
  have key : ∀ (l : List (Fin (m + 1))) (s : St m), (∀ j ∈ l, i < j) → Usable M s →
      (∀ a, a < i → ∀ b, a < b → s.A a a ∣ s.A b b) →
      Usable M (l.foldl (fun s j => pairStep X s (i, j)) s) ∧
      (∀ a, a < i → ∀ b, a < b → (l.foldl (fun s j => pairStep X s (i, j)) s).A a a ∣
        (l.foldl (fun s j => pairStep X s (i, j)) s).A b b) ∧
      (∀ b, i < b → (b ∈ l ∨ s.A i i ∣ s.A b b) →
        (l.foldl (fun s j => pairStep X s (i, j)) s).A i i ∣
        (l.foldl (fun s j => pairStep X s (i, j)) s).A b b) := by
    intro l
    induction l with
    | nil =>
      intro s _ hu hc
      exact ⟨hu, hc, fun b _ hb => hb.resolve_left (by simp)⟩
    | cons j l ih =>
      intro s hl hu hc
      have hij : i < j := hl j (List.mem_cons_self ..)
      obtain ⟨d1, d2, d3⟩ := pairStep_diag X hu i j hij
      have hu' := usable_pairStep X hu i j hij
      have hgi : ((Int.gcd (s.A j j) (s.A i i) : ℕ) : ℤ) ∣ s.A i i := Int.gcd_dvd_right ..
      have hgj : ((Int.gcd (s.A j j) (s.A i i) : ℕ) : ℤ) ∣ s.A j j := Int.gcd_dvd_left ..
      have hc' : ∀ a, a < i → ∀ b, a < b →
          (pairStep X s (i, j)).A a a ∣ (pairStep X s (i, j)).A b b := by
        intro a ha b hb
        rw [d1 a ha.ne (ha.trans hij).ne]
        by_cases hb1 : b = i
        · rw [hb1, d2]
          exact Int.dvd_coe_gcd (hc a ha j (ha.trans hij)) (hc a ha i ha)
        · by_cases hb2 : b = j
          · rw [hb2, d3]
            exact (hc a ha i ha).mul_left _
          · rw [d1 b hb1 hb2]; exact hc a ha b hb
      obtain ⟨r1, r2, r3⟩ := ih (pairStep X s (i, j)) (fun k hk => hl k (List.mem_cons_of_mem _ hk))
        hu' hc'
      refine ⟨r1, r2, fun b hb hor => r3 b hb ?_⟩
      by_cases hbj : b = j
      · right
        rw [hbj, d2, d3]
        exact hgi.mul_left _
      · rcases hor with hm | hd
        · left; exact (List.mem_cons.mp hm).resolve_left hbj
        · right
          rw [d1 b hb.ne' hbj, d2]
          exact hgi.trans hd
  obtain ⟨k1, k2, k3⟩ := key ((List.finRange (m + 1)).filter fun j => i < j) s
    (by intro j hj; simpa using (List.mem_filter.mp hj).2) h hch
  refine ⟨k1, fun a ha b hb => ?_⟩
  by_cases hai : a < i
  · exact k2 a hai b hb
  · have : a = i := by
      rcases ha with ha | ha
      · by_cases hl : i = Fin.last m
        · subst hl; exact le_antisymm (Fin.le_last a) (not_lt.mp hai)
        · have hi1 : (i + 1).val = i.val + 1 := Fin.val_add_one_of_lt (lt_of_le_of_ne (Fin.le_last i) hl)
          rw [Fin.lt_def, hi1] at ha
          rw [Fin.lt_def] at hai
          exact Fin.ext (by omega)
      · exact le_antisymm ha (not_lt.mp hai)
    subst this
    exact k3 b hb (Or.inl (by simp [List.mem_filter, hb]))

end Verif.Smith
