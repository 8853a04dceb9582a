import Verif.Preprocess.Model
import Mathlib.LinearAlgebra.Matrix.Block
import Mathlib.LinearAlgebra.Matrix.ToLin
import Mathlib.LinearAlgebra.Dimension.StrongRankCondition
import Mathlib.Tactic.Linarith
import Mathlib.Tactic.Ring
import Mathlib.Tactic.Push

/-!
# `ihermite` is correct and ends
-/

namespace Verif.Preprocess

open Matrix

variable {n m : ℕ}

/-! ## The pivot -/

theorem pivot_foldl (S : Matrix (Fin n) (Fin m) ℤ) (cj : Fin m) (l : List (Fin n)) :
    ∀ r : Fin n, ∃ r', (l.foldl (fun (s : ℤ × Fin n) i => if s.1 = 0 ∨ (s.1 > |S i cj| ∧ |S i cj| ≠ 0) then (|S i cj|, i) else s)
        (|S r cj|, r)).2 = r' ∧ (r' = r ∨ r' ∈ l) ∧ (S r' cj = 0 → S r cj = 0 ∧ ∀ i ∈ l, S i cj = 0) ∧
        (S r cj ≠ 0 → |S r' cj| ≤ |S r cj|) ∧ ∀ i ∈ l, S i cj ≠ 0 → |S r' cj| ≤ |S i cj| := by
  induction l with
  | nil => intro r; exact ⟨r, rfl, Or.inl rfl, fun h => ⟨h, by simp⟩, fun _ => le_refl _, by simp⟩
  | cons i l ih =>
    intro r
    rw [List.foldl_cons]
    by_cases h : |S r cj| = 0 ∨ (|S r cj| > |S i cj| ∧ |S i cj| ≠ 0)
    · simp only [h, if_true]
      obtain ⟨r', h1, h2, h3, h4, h5⟩ := ih i
      refine ⟨r', h1, ?_, ?_, ?_, ?_⟩
      · rcases h2 with h2 | h2
        · exact Or.inr (by simp [h2])
        · exact Or.inr (by simp [h2])
      · intro h0
        obtain ⟨h6, h7⟩ := h3 h0
        refine ⟨?_, ?_⟩
        · rcases h with h | h
          · exact abs_eq_zero.1 h
          · exact absurd (by rw [h6, abs_zero]) h.2
        · intro t ht
          rcases List.mem_cons.1 ht with rfl | ht
          · exact h6
          · exact h7 t ht
      · intro hr
        rcases h with h | h
        · exact absurd (abs_eq_zero.1 h) hr
        · exact le_trans (h4 fun h0 => h.2 (by rw [h0, abs_zero])) h.1.le
      · intro t ht h0
        rcases List.mem_cons.1 ht with rfl | ht
        · exact h4 h0
        · exact h5 t ht h0
    · simp only [h, if_false]
      obtain ⟨r', h1, h2, h3, h4, h5⟩ := ih r
      push Not at h
      have hr : S r cj ≠ 0 := fun h0 => h.1 (by rw [h0, abs_zero])
      refine ⟨r', h1, ?_, ?_, h4, ?_⟩
      · rcases h2 with h2 | h2
        · exact Or.inl h2
        · exact Or.inr (by simp [h2])
      · intro h0
        exact absurd (h3 h0).1 hr
      · intro t ht h0
        rcases List.mem_cons.1 ht with rfl | ht
        · refine le_trans (h4 hr) ?_
          by_contra hc
          push Not at hc
          exact h0 (abs_eq_zero.1 (h.2 hc))
        · exact h5 t ht h0

/-- The pivot row is at or below the diagonal; its entry has least absolute value among the non-zero ones. -/
theorem pivotRow_spec (S : Matrix (Fin n) (Fin m) ℤ) (c : Fin n) (cj : Fin m) :
    c ≤ pivotRow S c cj ∧ (S (pivotRow S c cj) cj = 0 → ∀ i, c ≤ i → S i cj = 0) ∧
      ∀ i, c ≤ i → S i cj ≠ 0 → |S (pivotRow S c cj) cj| ≤ |S i cj| := by
  obtain ⟨r', h1, h2, h3, h4, h5⟩ := pivot_foldl S cj ((List.finRange n).filter fun i => c < i) c
  have h1 : pivotRow S c cj = r' := h1
  rw [h1]
  refine ⟨?_, ?_, ?_⟩
  · rcases h2 with h2 | h2
    · exact h2.ge
    · simp at h2
      exact h2.le
  · intro h0 i hi
    rcases eq_or_lt_of_le hi with rfl | hi
    · exact (h3 h0).1
    · exact (h3 h0).2 i (by simp [hi])
  · intro i hi h0
    rcases eq_or_lt_of_le hi with rfl | hi
    · exact h4 h0
    · exact h5 i (by simp [hi]) h0

/-- The rows exchanged by `pivot`. -/
theorem pivot_S (s : HState n m) (c : Fin n) (cj : Fin m) (i : Fin n) (j : Fin m) (hj : cj ≤ j) :
    ∃ ε : ℤ, (ε = 1 ∨ ε = -1) ∧ (pivot s c cj).S i j = if i = c then ε * s.S (pivotRow s.S c cj) j
        else if i = pivotRow s.S c cj then s.S c j else s.S i j := by
  by_cases h : pivotRow s.S c cj ≠ c ∨ s.S (pivotRow s.S c cj) cj < 0
  · refine ⟨if s.S (pivotRow s.S c cj) cj < 0 then -1 else 1, by split <;> simp, ?_⟩
    simp only [pivot, h, if_true, not_lt.2 hj, if_false]
  · refine ⟨1, Or.inl rfl, ?_⟩
    simp only [pivot, h, if_false]
    push Not at h
    split
    · rename_i h1; rw [h.1, h1, one_mul]
    · rename_i h1; rw [h.1, if_neg h1]

theorem pivot_diag (s : HState n m) (c : Fin n) (cj : Fin m) :
    (pivot s c cj).S c cj = |s.S (pivotRow s.S c cj) cj| := by
  by_cases h : pivotRow s.S c cj ≠ c ∨ s.S (pivotRow s.S c cj) cj < 0
  · simp only [pivot, h, if_true, lt_irrefl, if_false]
    split
    · rename_i h1; rw [abs_of_neg h1]; ring
    · rename_i h1; rw [abs_of_nonneg (not_lt.1 h1)]; ring
  · simp only [pivot, h, if_false]
    push Not at h
    rw [abs_of_nonneg h.2, h.1]

theorem pivot_col_zero (s : HState n m) (c : Fin n) (cj : Fin m) (h : (pivot s c cj).S c cj = 0) (i : Fin n) (hi : c ≤ i) : s.S i cj = 0 := by
  rw [pivot_diag, abs_eq_zero] at h
  exact (pivotRow_spec s.S c cj).2.1 h i hi

theorem pivot_c (s : HState n m) (c : Fin n) (cj : Fin m) : (pivot s c cj).c = s.c ∧ (pivot s c cj).crk = s.crk ∧ (pivot s c cj).rhs = s.rhs := by
  unfold pivot; simp only; split <;> simp

/-! ## The invariant -/

/-- What holds at the head of the loop. -/
structure Inv (S0 : Matrix (Fin n) (Fin m) ℤ) (rhs0 : Fin m → ℤ) (s : HState n m) : Prop where
  unimodular : IsUnit s.U.det
  product : ∃ σ : Equiv.Perm (Fin m), (∀ i j, s.S i j = ∑ k, s.U i k * S0 k (σ j)) ∧ ∀ j, s.rhs j = rhs0 (σ j)
  below : ∀ (i : Fin n) (j : Fin m), j.val < s.c → j.val < i.val → s.S i j = 0
  diag : ∀ (i : Fin n) (j : Fin m), j.val < s.c → i.val = j.val → 0 < s.S i j
  hn : s.c ≤ n
  hm : s.c ≤ m
  rank : s.crk = s.c ∨ (s.crk = s.c + 1 ∧ ∃ (hn : s.c < n) (hm : s.c < m), s.S ⟨s.c, hn⟩ ⟨s.c, hm⟩ ≠ 0)

theorem inv_pivot {S0 : Matrix (Fin n) (Fin m) ℤ} {rhs0 : Fin m → ℤ} {s : HState n m} (h : Inv S0 rhs0 s) (c : Fin n) (cj : Fin m)
    (hc : c.val = s.c) (hcj : cj.val = s.c) : Inv S0 rhs0 (pivot s c cj) := by
  obtain ⟨hp1, hp2, hp3⟩ := pivotRow_spec s.S c cj
  obtain ⟨e1, e2, e3⟩ := pivot_c s c cj
  have hrank : (pivot s c cj).crk = (pivot s c cj).c ∨ ((pivot s c cj).crk = (pivot s c cj).c + 1 ∧
      ∃ (hn : (pivot s c cj).c < n) (hm : (pivot s c cj).c < m), (pivot s c cj).S ⟨(pivot s c cj).c, hn⟩ ⟨(pivot s c cj).c, hm⟩ ≠ 0) := by
    rw [e2]
    rcases h.rank with hr | ⟨hr, hn, hm, h0⟩
    · left; rw [hr, e1]
    · right
      refine ⟨by rw [hr, e1], by rw [e1]; exact hn, by rw [e1]; exact hm, ?_⟩
      have ec : (⟨(pivot s c cj).c, by rw [e1]; exact hn⟩ : Fin n) = c := Fin.ext (by simp [e1, hc])
      have ecj : (⟨(pivot s c cj).c, by rw [e1]; exact hm⟩ : Fin m) = cj := Fin.ext (by simp [e1, hcj])
      rw [ec, ecj]
      intro h1
      apply h0
      have ec' : (⟨s.c, hn⟩ : Fin n) = c := Fin.ext hc.symm
      have ecj' : (⟨s.c, hm⟩ : Fin m) = cj := Fin.ext hcj.symm
      rw [ec', ecj']
      exact pivot_col_zero s c cj h1 c le_rfl
  by_cases hcase : pivotRow s.S c cj ≠ c ∨ s.S (pivotRow s.S c cj) cj < 0
  swap
  · have : pivot s c cj = s := by simp only [pivot, hcase, if_false]
    rw [this]; exact h
  set mc := pivotRow s.S c cj with hmc
  set ε : ℤ := if s.S mc cj < 0 then -1 else 1 with hε
  have hU : ∀ i j, (pivot s c cj).U i j = if i = c then ε * s.U mc j else if i = mc then s.U c j else s.U i j := by
    intro i j
    simp only [pivot, ← hmc, hcase, if_true, ← hε]
  have hS : ∀ i j, (pivot s c cj).S i j = if i = c then ε * s.S mc j else if i = mc then s.S c j else s.S i j := by
    intro i j
    have e : (pivot s c cj).S i j = if j < cj then s.S i j else if i = c then ε * s.S mc j else if i = mc then s.S c j else s.S i j := by
      simp only [pivot, ← hmc, hcase, if_true, ← hε]
    rw [e]
    by_cases hj : j < cj
    · rw [if_pos hj]
      have hjv : j.val < s.c := by rw [← hcj]; exact hj
      have z : ∀ i : Fin n, c ≤ i → s.S i j = 0 := fun i hi => h.below i j hjv (by rw [← hc] at hjv; exact lt_of_lt_of_le hjv hi)
      split
      · rename_i h1; rw [h1, z c le_rfl, z mc hp1, mul_zero]
      · split
        · rename_i h2; rw [h2, z mc hp1, z c le_rfl]
        · rfl
    · rw [if_neg hj]
  have hεu : IsUnit ε := by
    rw [hε]; split
    · exact isUnit_one.neg
    · exact isUnit_one
  have hUeq : (pivot s c cj).U = (s.U.submatrix (Equiv.swap c mc) id).updateRow c (ε • (s.U.submatrix (Equiv.swap c mc) id) c) := by
    ext i j
    rw [hU, updateRow_apply]
    by_cases h1 : i = c
    · simp [h1]
    · rw [if_neg h1, if_neg h1]
      by_cases h2 : i = mc
      · simp [h2]
      · rw [if_neg h2]; simp [Equiv.swap_apply_of_ne_of_ne h1 h2]
  obtain ⟨σ, hσ1, hσ2⟩ := h.product
  refine ⟨?_, ⟨σ, ?_, ?_⟩, ?_, ?_, by rw [e1]; exact h.hn, by rw [e1]; exact h.hm, hrank⟩
  · rw [hUeq, det_updateRow_smul, updateRow_eq_self, det_permute]
    refine hεu.mul (IsUnit.mul ?_ h.unimodular)
    exact_mod_cast (Equiv.Perm.sign (Equiv.swap c mc)).isUnit
  · intro i j
    rw [hS]
    simp only [hU]
    split
    · rw [hσ1, Finset.mul_sum]
      exact Finset.sum_congr rfl fun k _ => by ring
    · split
      · rw [hσ1]
      · rw [hσ1]
  · intro j; rw [e3]; exact hσ2 j
  · intro i j hj hij
    rw [e1] at hj
    rw [hS]
    have z : ∀ i : Fin n, c ≤ i → s.S i j = 0 := fun i hi => h.below i j hj (by rw [← hc] at hj; exact lt_of_lt_of_le hj hi)
    split
    · rw [z mc hp1, mul_zero]
    · split
      · exact z c le_rfl
      · exact h.below i j hj hij
  · intro i j hj hij
    rw [e1] at hj
    rw [hS, if_neg, if_neg]
    · exact h.diag i j hj hij
    · rintro rfl
      have : c.val ≤ mc.val := hp1
      omega
    · rintro rfl; omega

theorem inv_swap {S0 : Matrix (Fin n) (Fin m) ℤ} {rhs0 : Fin m → ℤ} {s : HState n m} (h : Inv S0 rhs0 s) (cj i : Fin m)
    (hcj : cj.val = s.c) (hi : cj ≤ i) (hz : ∀ k : Fin n, s.c ≤ k.val → s.S k cj = 0) : Inv S0 rhs0 (swapColumns s cj i) := by
  have hsw : ∀ j : Fin m, j.val < s.c → Equiv.swap i cj j = j := by
    intro j hj
    apply Equiv.swap_apply_of_ne_of_ne
    · rintro rfl; have : cj.val ≤ j.val := hi; omega
    · rintro rfl; omega
  obtain ⟨σ, hσ1, hσ2⟩ := h.product
  refine ⟨h.unimodular, ⟨(Equiv.swap i cj).trans σ, ?_, ?_⟩, ?_, ?_, h.hn, h.hm, ?_⟩
  · intro k j
    exact hσ1 k (Equiv.swap i cj j)
  · intro j
    exact hσ2 (Equiv.swap i cj j)
  · intro k j hj hkj
    show s.S k (Equiv.swap i cj j) = 0
    rw [hsw j hj]; exact h.below k j hj hkj
  · intro k j hj hkj
    show 0 < s.S k (Equiv.swap i cj j)
    rw [hsw j hj]; exact h.diag k j hj hkj
  · rcases h.rank with hr | ⟨_, hn, hm, h0⟩
    · exact Or.inl hr
    · exact absurd (by rw [show (⟨s.c, hm⟩ : Fin m) = cj from Fin.ext hcj.symm]; exact hz ⟨s.c, hn⟩ le_rfl) h0

/-- The columns before the current one stay in echelon form in `reduceRows`. -/
theorem reduce_S (s : HState n m) (c : Fin n) (cj : Fin m) (i : Fin n) (j : Fin m) (hj : j < cj) : (reduceRows s c cj).S i j = s.S i j := by
  simp [reduceRows, not_le.2 hj]

theorem reduce_c (s : HState n m) (c : Fin n) (cj : Fin m) (i : Fin n) (j : Fin m) (hi : i ≤ c) : (reduceRows s c cj).S i j = s.S i j := by
  simp [reduceRows, not_lt.2 hi]

theorem inv_reduce {S0 : Matrix (Fin n) (Fin m) ℤ} {rhs0 : Fin m → ℤ} {s : HState n m} (h : Inv S0 rhs0 s) (c : Fin n) (cj : Fin m)
    (hc : c.val = s.c) (hcj : cj.val = s.c) (hpos : 0 < s.S c cj) : Inv S0 rhs0 (reduceRows s c cj) := by
  obtain ⟨σ, hσ1, hσ2⟩ := h.product
  have hS : ∀ i j, (reduceRows s c cj).S i j = s.S i j + (if c < i then -Int.fdiv (s.S i cj) (s.S c cj) else 0) * s.S c j := by
    intro i j
    by_cases hj : j < cj
    · rw [reduce_S s c cj i j hj, h.below c j (by rw [← hcj]; exact hj) (by rw [hc, ← hcj]; exact hj)]; ring
    · by_cases hi : c < i
      · simp only [reduceRows, hi, not_lt.1 hj, and_self, if_true]; ring
      · simp only [reduceRows, hi, false_and, if_false]; ring
  have hU : ∀ i j, (reduceRows s c cj).U i j = s.U i j + (if c < i then -Int.fdiv (s.S i cj) (s.S c cj) else 0) * s.U c j := by
    intro i j
    by_cases hi : c < i
    · simp only [reduceRows, hi, if_true]; ring
    · simp only [reduceRows, hi, if_false]; ring
  refine ⟨?_, ⟨σ, ?_, hσ2⟩, ?_, ?_, h.hn, h.hm, Or.inr ⟨by show c.val + 1 = s.c + 1; rw [hc], by show s.c < n; rw [← hc]; exact c.2,
    by show s.c < m; rw [← hcj]; exact cj.2, ?_⟩⟩
  · rw [det_eq_of_forall_row_eq_smul_add_const (fun i => if c < i then -Int.fdiv (s.S i cj) (s.S c cj) else 0) c (by simp) hU]
    exact h.unimodular
  · intro i j
    simp only [hU, hS]
    rw [hσ1 i j, hσ1 c j, Finset.mul_sum, ← Finset.sum_add_distrib]
    exact Finset.sum_congr rfl fun k _ => by ring
  · intro i j hj hij
    rw [reduce_S s c cj i j (by show j.val < cj.val; rw [hcj]; exact hj)]
    exact h.below i j hj hij
  · intro i j hj hij
    rw [reduce_S s c cj i j (by show j.val < cj.val; rw [hcj]; exact hj)]
    exact h.diag i j hj hij
  · have e1 : (⟨(reduceRows s c cj).c, by show s.c < n; rw [← hc]; exact c.2⟩ : Fin n) = c := Fin.ext hc.symm
    have e2 : (⟨(reduceRows s c cj).c, by show s.c < m; rw [← hcj]; exact cj.2⟩ : Fin m) = cj := Fin.ext hcj.symm
    rw [e1, e2, reduce_c s c cj c cj le_rfl]
    exact hpos.ne'

theorem inv_next {S0 : Matrix (Fin n) (Fin m) ℤ} {rhs0 : Fin m → ℤ} {s : HState n m} (h : Inv S0 rhs0 s) (c : Fin n) (cj : Fin m)
    (hc : c.val = s.c) (hcj : cj.val = s.c) (hpos : 0 < s.S c cj) (hz : ∀ i, c < i → s.S i cj = 0) (hr : s.crk = s.c + 1) :
    Inv S0 rhs0 { s with c := s.c + 1 } := by
  have hcn := c.2
  have hcm := cj.2
  refine ⟨h.unimodular, h.product, ?_, ?_, by show s.c + 1 ≤ n; omega, by show s.c + 1 ≤ m; omega, Or.inl hr⟩
  · intro i j hj hij
    have hj : j.val < s.c + 1 := hj
    by_cases h1 : j.val < s.c
    · exact h.below i j h1 hij
    · have : j = cj := Fin.ext (by omega)
      rw [this]
      exact hz i (by show c.val < i.val; omega)
  · intro i j hj hij
    have hj : j.val < s.c + 1 := hj
    by_cases h1 : j.val < s.c
    · exact h.diag i j h1 hij
    · have e1 : j = cj := Fin.ext (by omega)
      have e2 : i = c := Fin.ext (by omega)
      rw [e1, e2]
      exact hpos

/-- What a caller of `ihermite` can rely on. -/
structure HermiteSpec (S0 : Matrix (Fin n) (Fin m) ℤ) (rhs0 : Fin m → ℤ) (s : HState n m) : Prop where
  unimodular : IsUnit s.U.det
  product : ∃ σ : Equiv.Perm (Fin m), (∀ i j, s.S i j = ∑ k, s.U i k * S0 k (σ j)) ∧ ∀ j, s.rhs j = rhs0 (σ j)
  below : ∀ (i : Fin n) (j : Fin m), j.val < i.val → j.val < s.crk → s.S i j = 0
  diag : ∀ (i : Fin n) (j : Fin m), i.val = j.val → j.val < s.crk → 0 < s.S i j
  rest : ∀ (i : Fin n) (j : Fin m), s.crk ≤ i.val → s.S i j = 0
  hn : s.crk ≤ n
  hm : s.crk ≤ m

theorem findColumn_spec {S : Matrix (Fin n) (Fin m) ℤ} {c : Fin n} {cj i : Fin m} (h : findColumn S c cj = some i) :
    cj ≤ i ∧ ∃ j : Fin n, c ≤ j ∧ S j i ≠ 0 := by
  have := List.find?_some h
  simpa using this

theorem findColumn_none {S : Matrix (Fin n) (Fin m) ℤ} {c : Fin n} {cj : Fin m} (h : findColumn S c cj = none) (i : Fin m) (hi : cj ≤ i)
    (j : Fin n) (hj : c ≤ j) : S j i = 0 := by
  have := List.find?_eq_none.1 h i (List.mem_finRange i)
  by_contra h0
  exact this (by simp only [decide_eq_true_eq]; exact ⟨hi, j, hj, h0⟩)

theorem hermiteLoop_spec {S0 : Matrix (Fin n) (Fin m) ℤ} {rhs0 : Fin m → ℤ} (fuel : ℕ) :
    ∀ s s' : HState n m, Inv S0 rhs0 s → hermiteLoop fuel s = some s' → HermiteSpec S0 rhs0 s' := by
  induction fuel with
  | zero => intro s s' _ h; simp [hermiteLoop] at h
  | succ fuel ih =>
    intro s s' hinv h
    rw [hermiteLoop] at h
    split at h
    swap
    · rename_i hc
      simp only [Option.some.injEq] at h
      subst h
      have hr : s.crk = s.c := by
        rcases hinv.rank with hr | ⟨_, h1, h2, _⟩
        · exact hr
        · exact absurd ⟨h1, h2⟩ hc
      refine ⟨hinv.unimodular, hinv.product, fun i j h1 h2 => hinv.below i j (by rw [← hr]; exact h2) h1,
        fun i j h1 h2 => hinv.diag i j (by rw [← hr]; exact h2) h1, ?_, by rw [hr]; exact hinv.hn, by rw [hr]; exact hinv.hm⟩
      intro i j hi
      have h1 := hinv.hn
      have h2 := hinv.hm
      have h3 := i.2
      have h4 := j.2
      refine hinv.below i j ?_ ?_ <;> omega
    rename_i hc
    simp only at h
    set c : Fin n := ⟨s.c, hc.1⟩ with hcdef
    set cj : Fin m := ⟨s.c, hc.2⟩ with hcjdef
    have h1 := inv_pivot hinv c cj rfl rfl
    obtain ⟨e1, e2, e3⟩ := pivot_c s c cj
    split at h
    · rename_i h0
      have hz : ∀ k : Fin n, (pivot s c cj).c ≤ k.val → (pivot s c cj).S k cj = 0 := by
        intro k hk
        rw [e1] at hk
        obtain ⟨ε, _, he⟩ := pivot_S s c cj k cj le_rfl
        rw [he]
        have z := fun i hi => pivot_col_zero s c cj h0 i hi
        split
        · rw [z _ (pivotRow_spec s.S c cj).1, mul_zero]
        · split
          · exact z c le_rfl
          · exact z k hk
      split at h
      · rename_i hf
        simp only [Option.some.injEq] at h
        subst h
        have hr : (pivot s c cj).crk = s.c := by
          rcases h1.rank with hr | ⟨_, hn, hm, h2⟩
          · rw [hr, e1]
          · refine absurd ?_ h2
            rw [show (⟨(pivot s c cj).c, hm⟩ : Fin m) = cj from Fin.ext e1]
            exact hz _ le_rfl
        refine ⟨h1.unimodular, h1.product, fun i j h3 h4 => h1.below i j (by rw [e1, ← hr]; exact h4) h3,
          fun i j h3 h4 => h1.diag i j (by rw [e1, ← hr]; exact h4) h3, ?_, by rw [hr]; exact hc.1.le, by rw [hr]; exact hc.2.le⟩
        intro i j hi
        rw [hr] at hi
        by_cases hj : j.val < s.c
        · exact h1.below i j (by rw [e1]; exact hj) (by omega)
        · exact findColumn_none hf j (by show s.c ≤ j.val; omega) i hi
      · rename_i i hf
        obtain ⟨hi, _⟩ := findColumn_spec hf
        exact ih _ s' (inv_swap h1 cj i e1.symm hi hz) h
    · rename_i h0
      have hpos : 0 < (pivot s c cj).S c cj := by
        rw [pivot_diag] at h0 ⊢
        exact lt_of_le_of_ne (abs_nonneg _) (Ne.symm h0)
      have h2 := inv_reduce h1 c cj e1.symm e1.symm hpos
      split at h
      · rename_i hz
        refine ih _ s' ?_ h
        have := inv_next h2 c cj e1.symm e1.symm (by rw [reduce_c _ c cj c cj le_rfl]; exact hpos) hz
          (by show c.val + 1 = (pivot s c cj).c + 1; rw [e1])
        have hcc : (reduceRows (pivot s c cj) c cj).c = s.c := e1
        rw [hcc] at this
        exact this
      · exact ih _ s' h2 h

theorem inv_start (S0 : Matrix (Fin n) (Fin m) ℤ) (rhs0 : Fin m → ℤ) : Inv S0 rhs0 ⟨S0, 1, rhs0, 0, 0⟩ := by
  refine ⟨by simp, ⟨1, ?_, fun _ => rfl⟩, ?_, ?_, Nat.zero_le _, Nat.zero_le _, Or.inl rfl⟩
  · intro i j
    simp [Matrix.one_apply]
  · intro i j h; exact absurd h (Nat.not_lt_zero _)
  · intro i j h; exact absurd h (Nat.not_lt_zero _)

/-- Partial correctness of `ihermite`. -/
theorem ihermite_spec {fuel : ℕ} {S0 : Matrix (Fin n) (Fin m) ℤ} {rhs0 : Fin m → ℤ} {s : HState n m} (h : ihermite fuel S0 rhs0 = some s) :
    HermiteSpec S0 rhs0 s :=
  hermiteLoop_spec fuel _ s (inv_start S0 rhs0) h

/-! ## Termination -/

theorem hermiteLoop_mono (fuel : ℕ) : ∀ (s s' : HState n m), hermiteLoop fuel s = some s' → ∀ k, hermiteLoop (fuel + k) s = some s' := by
  induction fuel with
  | zero => intro s s' h; simp [hermiteLoop] at h
  | succ fuel ih =>
    intro s s' h k
    rw [show fuel + 1 + k = (fuel + k) + 1 by omega]
    rw [hermiteLoop] at h ⊢
    split at h
    swap
    · rename_i hc; rw [dif_neg hc]; exact h
    rename_i hc
    rw [dif_pos hc]
    simp only at h ⊢
    split at h
    · rename_i h0
      rw [if_pos h0]
      split at h
      · exact h
      · exact ih _ _ h k
    · rename_i h0
      rw [if_neg h0]
      split at h
      · rename_i h1; rw [if_pos h1]; exact ih _ _ h k
      · rename_i h1; rw [if_neg h1]; exact ih _ _ h k

/-- The size of the next pivot. -/
def pivotSize (s : HState n m) (c : Fin n) (cj : Fin m) : ℕ := (s.S (pivotRow s.S c cj) cj).natAbs

theorem reduce_smaller (s : HState n m) (c : Fin n) (cj : Fin m) (hpos : 0 < s.S c cj) (i : Fin n) (hi : c < i) :
    0 ≤ (reduceRows s c cj).S i cj ∧ (reduceRows s c cj).S i cj < s.S c cj := by
  have e : (reduceRows s c cj).S i cj = s.S i cj - Int.fdiv (s.S i cj) (s.S c cj) * s.S c cj := by
    simp [reduceRows, hi]
  rw [e, Int.fdiv_eq_ediv_of_nonneg _ hpos.le]
  have h1 := Int.emod_nonneg (s.S i cj) hpos.ne'
  have h2 := Int.emod_lt_of_pos (s.S i cj) hpos
  have h3 := Int.emod_add_mul_ediv (s.S i cj) (s.S c cj)
  constructor <;> linarith [mul_comm (s.S c cj) (s.S i cj / s.S c cj)]

/-- The loop ends from a state whose pivot is non-zero, if it ends from every state with a larger `c`. -/
theorem loop_ends_pos {k : ℕ} (hk : ∀ s : HState n m, s.c = k + 1 → ∃ fuel s', hermiteLoop fuel s = some s') (hn : k < n) (hm : k < m) :
    ∀ (v : ℕ) (s : HState n m), s.c = k → pivotSize s ⟨k, hn⟩ ⟨k, hm⟩ = v → v ≠ 0 → ∃ fuel s', hermiteLoop fuel s = some s' := by
  intro v
  induction v using Nat.strong_induction_on with
  | _ v ih =>
    intro s hs hv hv0
    subst hs
    set c : Fin n := ⟨s.c, hn⟩ with hcdef
    set cj : Fin m := ⟨s.c, hm⟩ with hcjdef
    have hd : (pivot s c cj).S c cj = (v : ℤ) := by
      rw [pivot_diag, ← hv, pivotSize, Int.natCast_natAbs]
    have hpos : 0 < (pivot s c cj).S c cj := by rw [hd]; omega
    obtain ⟨e1, _, _⟩ := pivot_c s c cj
    by_cases hz : ∀ i, c < i → (reduceRows (pivot s c cj) c cj).S i cj = 0
    · obtain ⟨fuel, s', h⟩ := hk { reduceRows (pivot s c cj) c cj with c := s.c + 1 } rfl
      refine ⟨fuel + 1, s', ?_⟩
      rw [hermiteLoop, dif_pos ⟨hn, hm⟩]
      simp only
      rw [if_neg hpos.ne', if_pos hz]
      exact h
    · have hz' := hz
      push Not at hz'
      obtain ⟨i, hi, h0⟩ := hz'
      obtain ⟨h1, h2⟩ := reduce_smaller (pivot s c cj) c cj hpos i hi
      have hcol := pivotRow_spec (reduceRows (pivot s c cj) c cj).S c cj
      have h3 := hcol.2.2 i hi.le h0
      have hne : (reduceRows (pivot s c cj) c cj).S (pivotRow (reduceRows (pivot s c cj) c cj).S c cj) cj ≠ 0 := fun h => h0 (hcol.2.1 h i hi.le)
      have hlt : pivotSize (reduceRows (pivot s c cj) c cj) c cj < v := by
        unfold pivotSize
        rw [abs_of_nonneg h1, Int.abs_eq_natAbs] at h3
        rw [hd] at h2
        omega
      obtain ⟨fuel, s', h⟩ := ih _ hlt (reduceRows (pivot s c cj) c cj) e1 rfl (by unfold pivotSize; omega)
      refine ⟨fuel + 1, s', ?_⟩
      rw [hermiteLoop, dif_pos ⟨hn, hm⟩]
      simp only
      rw [if_neg hpos.ne', if_neg hz]
      exact h

theorem loop_ends_step {k : ℕ} (hk : ∀ s : HState n m, s.c = k + 1 → ∃ fuel s', hermiteLoop fuel s = some s')
    (s : HState n m) (hs : s.c = k) : ∃ fuel s', hermiteLoop fuel s = some s' := by
  by_cases hc : s.c < n ∧ s.c < m
  swap
  · exact ⟨1, s, by rw [hermiteLoop, dif_neg hc]⟩
  subst hs
  by_cases hv : pivotSize s ⟨s.c, hc.1⟩ ⟨s.c, hc.2⟩ = 0
  swap
  · exact loop_ends_pos hk hc.1 hc.2 _ s rfl rfl hv
  set c : Fin n := ⟨s.c, hc.1⟩ with hcdef
  set cj : Fin m := ⟨s.c, hc.2⟩ with hcjdef
  have h0 : (pivot s c cj).S c cj = 0 := by
    rw [pivot_diag, abs_eq_zero]; exact Int.natAbs_eq_zero.1 hv
  obtain ⟨e1, _, _⟩ := pivot_c s c cj
  cases hf : findColumn (pivot s c cj).S c cj with
  | none =>
    refine ⟨1, pivot s c cj, ?_⟩
    rw [hermiteLoop, dif_pos hc]
    simp only
    rw [if_pos h0, hf]
  | some i =>
    obtain ⟨hi, j, hj, hne⟩ := findColumn_spec hf
    have hs2 : (swapColumns (pivot s c cj) cj i).c = s.c := e1
    have hne2 : (swapColumns (pivot s c cj) cj i).S j cj ≠ 0 := by
      show (pivot s c cj).S j (Equiv.swap i cj cj) ≠ 0
      rw [Equiv.swap_apply_right]; exact hne
    have hcol := pivotRow_spec (swapColumns (pivot s c cj) cj i).S c cj
    obtain ⟨fuel, s', h⟩ := loop_ends_pos hk hc.1 hc.2 _ (swapColumns (pivot s c cj) cj i) hs2 rfl (by
      intro hz
      exact hne2 (hcol.2.1 (Int.natAbs_eq_zero.1 hz) j hj))
    refine ⟨fuel + 1, s', ?_⟩
    rw [hermiteLoop, dif_pos hc]
    simp only
    rw [if_pos h0, hf]
    exact h

theorem loop_ends (k : ℕ) : ∀ s : HState n m, n ≤ s.c + k → ∃ fuel s', hermiteLoop fuel s = some s' := by
  induction k with
  | zero =>
    intro s hs
    exact ⟨1, s, by rw [hermiteLoop, dif_neg (by omega)]⟩
  | succ k ih => intro s hs; exact loop_ends_step (fun t ht => ih t (by omega)) s rfl

/-- `ihermite` ends for every matrix and right-hand side, with any larger amount of fuel the result is the same. -/
theorem ihermite_ends (S0 : Matrix (Fin n) (Fin m) ℤ) (rhs0 : Fin m → ℤ) :
    ∃ (N : ℕ) (s : HState n m), ∀ fuel, N ≤ fuel → ihermite fuel S0 rhs0 = some s := by
  obtain ⟨N, s, h⟩ := loop_ends n (⟨S0, 1, rhs0, 0, 0⟩ : HState n m) (Nat.le_add_left n 0)
  refine ⟨N, s, fun fuel hf => ?_⟩
  have := hermiteLoop_mono N _ s h (fuel - N)
  rw [show N + (fuel - N) = fuel by omega] at this
  exact this

end Verif.Preprocess
