import Mathlib.LinearAlgebra.Matrix.Determinant.Basic
import Mathlib.LinearAlgebra.Matrix.NonsingularInverse
import Mathlib.Data.Int.GCD
import Mathlib.Data.List.FinRange
import Mathlib.Tactic.Ring
import Mathlib.Tactic.Linarith

/-!
# Smith normal form by the Iliopoulos algorithm (model)

Models `code/latte/genFunction/matrix_ops.cpp` lines 145–394: `check`, `eliminationRow`,
`eliminationCol`, `diagonalizationIn`, `SmithNormalFormIlio`, for square matrices of size `m + 1`
(the only use in the code). NTL's `XGCD` is a parameter with its documented contract.
-/

namespace Verif.Smith

/-- Square integer matrices of size `m + 1`. -/
abbrev Mat (m : ℕ) := Matrix (Fin (m + 1)) (Fin (m + 1)) ℤ

/-- NTL's `XGCD(d, s, t, a, b)`: `d = gcd(a, b) ≥ 0` and `a*s + b*t = d`. -/
structure Xgcd where
  f : ℤ → ℤ → ℤ × ℤ × ℤ
  gcd : ∀ a b, (f a b).1 = Int.gcd a b
  bezout : ∀ a b, a * (f a b).2.1 + b * (f a b).2.2 = (f a b).1

variable {m : ℕ}

/-- Replace column `a` by `p·col_a + q·col_b` and column `b` by `r·col_a + s·col_b` (the loops of
matrix_ops.cpp lines 164–168 with `0 1 1 0`, and 177–189). -/
def comb2 (a b : Fin (m + 1)) (p q r s : ℤ) (M : Mat m) : Mat m := fun i j =>
  if j = a then p * M i a + q * M i b else if j = b then r * M i a + s * M i b else M i j

/-- Add `t_j · col_j`, for all `j`, to column `a` (lines 206–213; `t` vanishes up to `a`). -/
def addCols (a : Fin (m + 1)) (t : Fin (m + 1) → ℤ) (M : Mat m) : Mat m := fun i j =>
  if j = a then M i a + ∑ c, t c * M i c else M i j

/-- Subtract `tmp_j · col_a` from column `j` for all `j > a` (lines 215–226, 307–319). Column `a`
itself is not changed, so the order does not matter. -/
def subCols (a : Fin (m + 1)) (tmp : Fin (m + 1) → ℤ) (M : Mat m) : Mat m := fun i j =>
  if a < j then M i j - tmp j * M i a else M i j

/-- The backward gcd chain (lines 193–203) over the given columns: `g` starts as the last entry with
coefficient 1, every further entry is merged by `XGCD` and the later coefficients multiplied by
`s`. Returns `g` and the coefficients. -/
def coeffs (X : Xgcd) (row : Fin (m + 1) → ℤ) : List (Fin (m + 1)) → ℤ × (Fin (m + 1) → ℤ)
  | [] => (0, 0)
  | [c] => (row c, fun j => if j = c then 1 else 0)
  | c :: c' :: cs =>
    let gt := coeffs X row (c' :: cs)
    let x := X.f (row c) gt.1
    (x.1, fun j => if j = c then x.2.1 else x.2.2 * gt.2 j)

/-- The columns after the pivot, in order. -/
def after (o : Fin m) : List (Fin (m + 1)) :=
  (List.finRange (m + 1)).filter fun c => o.castSucc < c

/-- The first column operation of `eliminationRow` (lines 160–191): make the pivot entry zero by
swapping with the next column or by a 2×2 unimodular combination; nothing if it is zero already. -/
def op1 (X : Xgcd) (o : Fin m) (A : Mat m) : Mat m → Mat m :=
  let a := A o.castSucc o.castSucc
  let b := A o.castSucc o.succ
  if a ≠ 0 then
    if b = 0 then comb2 o.castSucc o.succ 0 1 1 0
    else
      let x := X.f a b
      comb2 o.castSucc o.succ (b / x.1) (-a / x.1) x.2.1 x.2.2
  else id

/-- `tmp` of the last loop of `eliminationRow` (lines 215–219):
`(A[offset][j] / g) * sign(A[offset][offset])`, zero when the entry is zero. -/
def tmpRow (o : Fin m) (g : ℤ) (A : Mat m) (j : Fin (m + 1)) : ℤ :=
  if A o.castSucc j ≠ 0 then A o.castSucc j / g * (A o.castSucc o.castSucc).sign else 0

/-- `eliminationRow(A, R, offset)` (lines 157–227). -/
def elimRow (X : Xgcd) (o : Fin m) (A R : Mat m) : Mat m × Mat m :=
  let A1 := op1 X o A A
  let R1 := op1 X o A R
  let gt := coeffs X (A1 o.castSucc) (after o)
  let A2 := addCols o.castSucc gt.2 A1
  let R2 := addCols o.castSucc gt.2 R1
  let tmp := tmpRow o gt.1 A2
  (subCols o.castSucc tmp A2, subCols o.castSucc tmp R2)

/-- `eliminationCol(A, L, offset)` (lines 228–286): statement by statement the transpose of
`eliminationRow` (rows for columns, `L` for `R`), and modelled as such. -/
def elimCol (X : Xgcd) (o : Fin m) (A L : Mat m) : Mat m × Mat m :=
  let r := elimRow X o A.transpose L.transpose
  (r.1.transpose, r.2.transpose)

/-- The state of the algorithm. -/
structure St (m : ℕ) where
  A : Mat m
  L : Mat m
  R : Mat m

/-- One round of the do-while loop of `diagonalizationIn` (lines 292–296). -/
def body (X : Xgcd) (o : Fin m) (s : St m) : St m :=
  let r := elimRow X o s.A s.R
  let c := elimCol X o r.1 s.L
  ⟨c.1, c.2, r.2⟩

/-- `check(A, offset)` (lines 145–155). NTL's `rem` is zero iff the divisor divides. -/
def check (o : Fin m) (A : Mat m) : Prop :=
  A o.castSucc o.castSucc = 0 ∨
    ∀ j, o.castSucc < j → A o.castSucc j % A o.castSucc o.castSucc = 0

instance (o : Fin m) (A : Mat m) : Decidable (check o A) := by unfold check; infer_instance

/-! ### Termination of the do-while loop -/

theorem coeffs_spec (X : Xgcd) (row : Fin (m + 1) → ℤ) (l : List (Fin (m + 1))) (hl : l.Nodup) :
    (∀ j, j ∉ l → (coeffs X row l).2 j = 0) ∧
    ∑ c, (coeffs X row l).2 c * row c = (coeffs X row l).1 ∧
    (∀ c ∈ l, (coeffs X row l).1 ∣ row c) ∧
    (∀ d, (∀ c ∈ l, d ∣ row c) → d ∣ (coeffs X row l).1) := by
  induction l with
  | nil => simp [coeffs]
  | cons c cs ih =>
    cases cs with
    | nil =>
      refine ⟨fun j hj => ?_, ?_, ?_, ?_⟩
      · simp at hj; simp [coeffs, hj]
      · simp [coeffs]
      · simp [coeffs]
      · intro d hd; exact hd c (by simp)
    | cons c' cs =>
      obtain ⟨hc, hl'⟩ := List.nodup_cons.mp hl
      obtain ⟨h1, h2, h3, h4⟩ := ih hl'
      have hb := X.bezout (row c) (coeffs X row (c' :: cs)).1
      have hg := X.gcd (row c) (coeffs X row (c' :: cs)).1
      unfold coeffs
      simp only
      refine ⟨fun j hj => ?_, ?_, ?_, ?_⟩
      · rw [List.mem_cons, not_or] at hj
        rw [if_neg hj.1, h1 j hj.2, mul_zero]
      · have e : ∀ j, (if j = c then (X.f (row c) (coeffs X row (c' :: cs)).1).2.1
            else (X.f (row c) (coeffs X row (c' :: cs)).1).2.2 * (coeffs X row (c' :: cs)).2 j) *
              row j =
            (if j = c then (X.f (row c) (coeffs X row (c' :: cs)).1).2.1 * row c else 0) +
            (X.f (row c) (coeffs X row (c' :: cs)).1).2.2 *
              ((coeffs X row (c' :: cs)).2 j * row j) := by
          intro j
          by_cases hj : j = c
          · subst hj
            rw [if_pos rfl, if_pos rfl, h1 j hc]; ring
          · rw [if_neg hj, if_neg hj]; ring
        simp only [e]
        rw [Finset.sum_add_distrib, ← Finset.mul_sum, h2, Finset.sum_ite_eq' Finset.univ c]
        simp only [Finset.mem_univ, if_true]
        rw [← hb]; ring
      · intro j hj
        rw [hg]
        rcases List.mem_cons.mp hj with rfl | hj
        · exact Int.gcd_dvd_left ..
        · exact (Int.gcd_dvd_right ..).trans (h3 j hj)
      · intro d hd
        rw [hg]
        exact Int.dvd_coe_gcd (hd c (List.mem_cons_self ..))
          (h4 d fun j hj => hd j (List.mem_cons_of_mem _ hj))

theorem mem_after (o : Fin m) (c : Fin (m + 1)) : c ∈ after o ↔ o.castSucc < c := by
  simp [after, List.mem_filter, List.mem_finRange]

theorem after_nodup (o : Fin m) : (after o).Nodup := (List.nodup_finRange _).filter _

theorem castSucc_ne_succ (o : Fin m) : o.castSucc ≠ o.succ := (Fin.castSucc_lt_succ).ne

/-- After the first operation the pivot entry is zero, and the gcd of the rest of the row is the
gcd of the whole old row (from the pivot on). -/
theorem op1_row (X : Xgcd) (o : Fin m) (A : Mat m) :
    op1 X o A A o.castSucc o.castSucc = 0 ∧
    ∀ d : ℤ, (∀ c, o.castSucc < c → d ∣ op1 X o A A o.castSucc c) ↔
      (∀ c, o.castSucc ≤ c → d ∣ A o.castSucc c) := by
  have hne := castSucc_ne_succ o
  unfold op1
  simp only
  by_cases ha : A o.castSucc o.castSucc = 0
  · rw [if_neg (not_not.mpr ha)]
    refine ⟨ha, fun d => ⟨fun h c hc => ?_, fun h c hc => h c hc.le⟩⟩
    rcases eq_or_lt_of_le hc with rfl | hc
    · rw [ha]; exact dvd_zero d
    · exact h c hc
  · rw [if_pos ha]
    by_cases hb : A o.castSucc o.succ = 0
    · rw [if_pos hb]
      refine ⟨by simp [comb2, hb], fun d => ⟨fun h c hc => ?_, fun h c hc => ?_⟩⟩
      · rcases eq_or_lt_of_le hc with rfl | hc
        · have := h o.succ Fin.castSucc_lt_succ
          simpa [comb2, hne.symm] using this
        · by_cases hc2 : c = o.succ
          · subst hc2; rw [hb]; exact dvd_zero d
          · have := h c hc
            simpa [comb2, hc.ne', hc2] using this
      · by_cases hc2 : c = o.succ
        · subst hc2
          simpa [comb2, hne.symm] using h o.castSucc le_rfl
        · simpa [comb2, hc.ne', hc2] using h c hc.le
    · rw [if_neg hb]
      obtain ⟨⟨g, x1, x2⟩, hx⟩ : ∃ p, p = X.f (A o.castSucc o.castSucc) (A o.castSucc o.succ) :=
        ⟨_, rfl⟩
      have hbz := X.bezout (A o.castSucc o.castSucc) (A o.castSucc o.succ)
      have hg := X.gcd (A o.castSucc o.castSucc) (A o.castSucc o.succ)
      rw [← hx] at hbz hg ⊢
      simp only at hbz hg ⊢
      have hga : g ∣ A o.castSucc o.castSucc := hg ▸ Int.gcd_dvd_left ..
      have hgb : g ∣ A o.castSucc o.succ := hg ▸ Int.gcd_dvd_right ..
      have hg0 : g ≠ 0 := by
        rintro rfl
        exact ha (zero_dvd_iff.mp hga)
      obtain ⟨a', ha'⟩ := hga
      obtain ⟨b', hb'⟩ := hgb
      refine ⟨?_, fun d => ⟨fun h c hc => ?_, fun h c hc => ?_⟩⟩
      · simp only [comb2, if_true]
        rw [ha', hb', Int.mul_ediv_cancel_left _ hg0, ← mul_neg, Int.mul_ediv_cancel_left _ hg0]
        ring
      · have hdg : d ∣ g := by
          have := h o.succ Fin.castSucc_lt_succ
          simp only [comb2, if_neg hne.symm, if_true] at this
          have e : x1 * A o.castSucc o.castSucc + x2 * A o.castSucc o.succ = g := by
            rw [← hbz]; ring
          rwa [e] at this
        rcases eq_or_lt_of_le hc with rfl | hc
        · rw [ha']; exact hdg.mul_right _
        · by_cases hc2 : c = o.succ
          · subst hc2; rw [hb']; exact hdg.mul_right _
          · have := h c hc
            simpa [comb2, hc.ne', hc2] using this
      · by_cases hc2 : c = o.succ
        · subst hc2
          simp only [comb2, if_neg hne.symm, if_true]
          exact dvd_add ((h _ le_rfl).mul_left _) ((h _ hc.le).mul_left _)
        · simpa [comb2, hc.ne', hc2] using h c hc.le

/-- The new pivot entry after `eliminationRow`: a common divisor of the old row from the pivot on,
and the greatest one. -/
theorem elimRow_pivot (X : Xgcd) (o : Fin m) (A R : Mat m) :
    (∀ c, o.castSucc ≤ c → (elimRow X o A R).1 o.castSucc o.castSucc ∣ A o.castSucc c) ∧
    (∀ d, (∀ c, o.castSucc ≤ c → d ∣ A o.castSucc c) →
      d ∣ (elimRow X o A R).1 o.castSucc o.castSucc) ∧
    (elimRow X o A R).1 o.castSucc o.castSucc =
      (coeffs X (op1 X o A A o.castSucc) (after o)).1 := by
  obtain ⟨h0, hd⟩ := op1_row X o A
  obtain ⟨-, h2, h3, h4⟩ := coeffs_spec X (op1 X o A A o.castSucc) (after o) (after_nodup o)
  have hp : (elimRow X o A R).1 o.castSucc o.castSucc =
      (coeffs X (op1 X o A A o.castSucc) (after o)).1 := by
    unfold elimRow
    simp only [subCols, lt_irrefl, if_false, addCols, if_true, h0, zero_add]
    exact h2
  refine ⟨?_, ?_, hp⟩
  · rw [hp]
    exact (hd _).mp fun c hc => h3 c ((mem_after o c).mpr hc)
  · intro d h
    rw [hp]
    exact h4 d fun c hc => (hd d).mpr h c ((mem_after o c).mp hc)

/-- If the test fails, the next round makes the pivot strictly smaller. -/
theorem body_decreases (X : Xgcd) (o : Fin m) (s : St m) (h : ¬ check o s.A) :
    ((body X o s).A o.castSucc o.castSucc).natAbs < (s.A o.castSucc o.castSucc).natAbs := by
  unfold check at h
  push Not at h
  obtain ⟨h0, j, hj, hnd⟩ := h
  obtain ⟨h1, h1', -⟩ := elimRow_pivot X o s.A s.R
  set A1 := (elimRow X o s.A s.R).1 with hA1
  -- the pivot after the row step is a proper divisor of the old one
  have hg0 : A1 o.castSucc o.castSucc ≠ 0 := by
    intro hz
    have := h1 _ le_rfl
    rw [hz] at this
    exact h0 (zero_dvd_iff.mp this)
  have hlt : (A1 o.castSucc o.castSucc).natAbs < (s.A o.castSucc o.castSucc).natAbs := by
    have hle := Int.natAbs_dvd_natAbs.mpr (h1 _ le_rfl)
    refine lt_of_le_of_ne (Nat.le_of_dvd (Int.natAbs_pos.mpr h0) hle) ?_
    intro heq
    apply hnd
    apply Int.emod_eq_zero_of_dvd
    have := h1 j hj.le
    rwa [← Int.natAbs_dvd, heq, Int.natAbs_dvd] at this
  -- the column step only divides it further
  obtain ⟨h2, -, -⟩ := elimRow_pivot X o A1.transpose s.L.transpose
  have h3 := h2 o.castSucc le_rfl
  have h4 : (body X o s).A o.castSucc o.castSucc =
      (elimRow X o A1.transpose s.L.transpose).1 o.castSucc o.castSucc := rfl
  rw [h4]
  have := Nat.le_of_dvd (Int.natAbs_pos.mpr hg0) (Int.natAbs_dvd_natAbs.mpr h3)
  omega

/-- Further rounds of the do-while loop, entered when the test failed. -/
def again (X : Xgcd) (o : Fin m) (s : St m) (h : ¬ check o s.A) : St m :=
  if h1 : check o (body X o s).A then body X o s else again X o (body X o s) h1
termination_by (s.A o.castSucc o.castSucc).natAbs
decreasing_by exact body_decreases X o s h

/-- The do-while loop (lines 292–297). -/
def rounds (X : Xgcd) (o : Fin m) (s : St m) : St m :=
  if h : check o (body X o s).A then body X o s else again X o (body X o s) h

/-- Multiply row `a` by -1. -/
def negRow (a : Fin (m + 1)) (M : Mat m) : Mat m := fun i j => if i = a then -M i j else M i j

/-- `A[a] *= -1; L[a] *= -1` if the diagonal entry is negative (lines 299–303, 321–325). -/
def fixSign (a : Fin (m + 1)) (s : St m) : St m :=
  if s.A a a < 0 then ⟨negRow a s.A, negRow a s.L, s.R⟩ else s

/-- The last part of a round of `diagonalizationIn` (lines 305–319): clear the row. -/
def clearRow (o : Fin m) (s : St m) : St m :=
  if s.A o.castSucc o.castSucc ≠ 0 then
    let tmp := fun j => if s.A o.castSucc j ≠ 0 then
      s.A o.castSucc j / s.A o.castSucc o.castSucc else 0
    ⟨subCols o.castSucc tmp s.A, s.L, subCols o.castSucc tmp s.R⟩
  else s

/-- One offset of `diagonalizationIn` (lines 290–320). -/
def diagStep (X : Xgcd) (s : St m) (o : Fin m) : St m :=
  clearRow o (fixSign o.castSucc (rounds X o s))

/-- `diagonalizationIn` (lines 288–326). -/
def diagonalize (X : Xgcd) (s : St m) : St m :=
  fixSign (Fin.last m) ((List.finRange m).foldl (diagStep X) s)

/-- The inner step of the second phase of `SmithNormalFormIlio` (lines 343–389) for one pair
`i < j`: gcd to position `i`, lcm to position `j`. The `break` on `A[i][i] == 1` is modelled as
skipping the remaining `j`, which is the same since nothing changes any more. Only the diagonal of
`A` is touched. -/
def pairStep (X : Xgcd) (s : St m) (ij : Fin (m + 1) × Fin (m + 1)) : St m :=
  let i := ij.1
  let j := ij.2
  let di := s.A i i
  let dj := s.A j j
  if di = 1 then s
  else if dj = 0 then s
  else if di = 0 then
    { A := fun r c => if r = i ∧ c = i then dj else if r = j ∧ c = j then di else s.A r c
      L := fun r c => if r = i then s.L j c else if r = j then s.L i c else s.L r c
      R := fun r c => if c = i then s.R r j else if c = j then s.R r i else s.R r c }
  else
    let g := (X.f dj di).1
    let y := (X.f dj di).2.1
    let x := (X.f dj di).2.2
    { A := fun r c => if r = i ∧ c = i then g
        else if r = j ∧ c = j then dj / g * di else s.A r c
      L := fun r c =>
        if r = i then s.L i c + y * s.L j c
        else if r = j then -s.L j c + dj / g * (s.L i c + y * s.L j c)
        else s.L r c
      R := fun r c =>
        if c = i then s.R r j + x * s.R r i
        else if c = j then s.R r i - di / g * (s.R r j + x * s.R r i)
        else s.R r c }

/-- The inner loop over `j` of the second phase (lines 341–390). -/
def pairRow (X : Xgcd) (s : St m) (i : Fin (m + 1)) : St m :=
  ((List.finRange (m + 1)).filter fun j => i < j).foldl (fun s j => pairStep X s (i, j)) s

/-- `SmithNormalFormIlio(copy, L, R)` (lines 328–394). -/
def smith (X : Xgcd) (M : Mat m) : St m :=
  (List.finRange (m + 1)).foldl (pairRow X) (diagonalize X ⟨M, 1, 1⟩)

end Verif.Smith
