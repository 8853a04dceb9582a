import Verif.Interp.Model
import Mathlib.Algebra.BigOperators.Ring.Finset
import Mathlib.Algebra.Field.Rat
import Mathlib.Algebra.BigOperators.Field
import Mathlib.Tactic.Ring
import Mathlib.Tactic.Linarith
import Mathlib.Tactic.FieldSimp
import Mathlib.Tactic.LinearCombination

namespace Latte.Interp
open Finset

/-- `v` solves the system with right-hand side scaled by `h` -/
def Sol (n : Nat) (M : Mat) (v : Nat → ℚ) (h : ℚ) : Prop :=
  ∀ i < n, ∑ j ∈ range n, M i j * v j = h * M i n

theorem sol_swap {n : Nat} {M : Mat} {a b : Nat} (ha : a < n) (hb : b < n) (v : Nat → ℚ) (h : ℚ) :
    Sol n (swapRows M a b) v h ↔ Sol n M v h := by
  unfold Sol swapRows
  constructor
  · intro hs i hi
    by_cases hia : i = a
    · subst hia
      have := hs b hb
      by_cases hba : b = i
      · subst hba; simpa using this
      · simpa [hba] using this
    · by_cases hib : i = b
      · subst hib
        have := hs a ha
        simpa using this
      · have := hs i hi
        simpa [hia, hib] using this
  · intro hs i hi
    by_cases hia : i = a
    · subst hia; simpa using hs b hb
    · by_cases hib : i = b
      · subst hib; simpa [hia] using hs a ha
      · simpa [hia, hib] using hs i hi

theorem sol_times {n : Nat} {M : Mat} {r : Nat} {c : ℚ} (hc : c ≠ 0) (v : Nat → ℚ) (h : ℚ) :
    Sol n (timesRow n M r c) v h ↔ Sol n M v h := by
  have key : ∀ i, (∑ j ∈ range n, timesRow n M r c i j * v j) - h * timesRow n M r c i n =
      (if i = r then c else 1) * ((∑ j ∈ range n, M i j * v j) - h * M i n) := by
    intro i
    unfold timesRow
    by_cases hi : i = r
    · simp only [hi, true_and, le_refl, if_true]
      rw [mul_sub, mul_sum]
      congr 1
      · apply sum_congr rfl
        intro j hj
        rw [if_pos (mem_range.1 hj).le]; ring
      · ring
    · simp [hi]
  unfold Sol
  constructor
  · intro hs i hi
    have h1 := key i
    rw [hs i hi, sub_self] at h1
    have h2 : (if i = r then c else 1) ≠ 0 := by split_ifs <;> simp [hc]
    have := (mul_eq_zero.1 h1.symm).resolve_left h2
    linarith
  · intro hs i hi
    have h1 := key i
    rw [hs i hi, sub_self, mul_zero] at h1
    linarith

theorem sol_add {n : Nat} {M : Mat} {src dst : Nat} {c : ℚ} (hsrc : src < n) (hne : src ≠ dst) (v : Nat → ℚ) (h : ℚ) :
    Sol n (addMultRows n M c src dst) v h ↔ Sol n M v h := by
  have key : ∀ i, (∑ j ∈ range n, addMultRows n M c src dst i j * v j) - h * addMultRows n M c src dst i n =
      ((∑ j ∈ range n, M i j * v j) - h * M i n) -
        (if i = dst then c else 0) * ((∑ j ∈ range n, M src j * v j) - h * M src n) := by
    intro i
    unfold addMultRows
    by_cases hi : i = dst
    · subst hi
      simp only [true_and, le_refl, if_true]
      have : ∑ j ∈ range n, (if j ≤ n then M i j - c * M src j else M i j) * v j =
          ∑ j ∈ range n, M i j * v j - c * ∑ j ∈ range n, M src j * v j := by
        rw [mul_sum, ← sum_sub_distrib]
        apply sum_congr rfl
        intro j hj
        rw [if_pos (mem_range.1 hj).le]; ring
      rw [this]; ring
    · simp [hi]
  unfold Sol
  constructor
  · intro hs i hi
    have h1 := key i
    have h3 := key src
    rw [hs i hi, sub_self] at h1
    rw [hs src hsrc, sub_self, if_neg hne] at h3
    have : (∑ j ∈ range n, M src j * v j) - h * M src n = 0 := by linarith
    rw [this] at h1
    linarith
  · intro hs i hi
    have h1 := key i
    rw [hs i hi, hs src hsrc] at h1
    linarith

theorem findRow_spec (M : Mat) (col r k : Nat) :
    r ≤ findRow M col r k ∧ findRow M col r k ≤ r + k ∧
    (∀ i, r ≤ i → i < findRow M col r k → M i col = 0) ∧
    (findRow M col r k < r + k → M (findRow M col r k) col ≠ 0) := by
  induction k generalizing r with
  | zero => refine ⟨le_rfl, le_rfl, fun i h1 h2 => ?_, fun h => ?_⟩ <;> simp only [findRow] at * <;> omega
  | succ k ih =>
    unfold findRow
    by_cases h : M r col = 0
    · rw [if_pos h]
      obtain ⟨h1, h2, h3, h4⟩ := ih (r + 1)
      refine ⟨by omega, by omega, ?_, fun hlt => h4 (by omega)⟩
      intro i hi1 hi2
      by_cases he : i = r
      · rw [he]; exact h
      · exact h3 i (by omega) hi2
    · rw [if_neg h]
      exact ⟨le_rfl, by omega, fun i h1 h2 => by omega, fun _ => h⟩

theorem elim_spec (n p col : Nat) (hp : p < n) (hcol : col < n) (k i : Nat) (hk : i + k = n) (M : Mat) (h1 : M p col = 1) :
    ∃ M', elim n p col k i M = .ok M' ∧ (∀ v h, Sol n M v h ↔ Sol n M' v h) ∧
    (∀ j, M' p j = M p j) ∧ (∀ a, a < i → ∀ j, M' a j = M a j) ∧
    (∀ a, i ≤ a → a < n → a ≠ p → ∀ j, j ≤ n → M' a j = M a j - M a col * M p j) := by
  induction k generalizing i M with
  | zero =>
    exact ⟨M, rfl, fun _ _ => Iff.rfl, fun _ => rfl, fun _ _ _ => rfl, fun a h2 h3 => by omega⟩
  | succ k ih =>
    unfold elim
    by_cases hc : M i col ≠ 0 ∧ i ≠ p
    · rw [if_pos hc]
      simp only
      set M1 := addMultRows n M (M i col) p i with hM1
      have hz : M1 i col = 0 := by
        simp [hM1, addMultRows, hcol.le, h1]
      rw [if_neg (by simpa using hz)]
      have hpi : p ≠ i := fun e => hc.2 e.symm
      have hp1 : ∀ j, M1 p j = M p j := by
        intro j; simp [hM1, addMultRows, hpi]
      obtain ⟨M', e, hs, hpp, hlt, hge⟩ := ih (i + 1) (by omega) M1 (by rw [hp1]; exact h1)
      refine ⟨M', e, ?_, ?_, ?_, ?_⟩
      · intro v h
        rw [← hs, hM1, sol_add hp hpi]
      · intro j; rw [hpp, hp1]
      · intro a ha j
        rw [hlt a (by omega) j]
        simp [hM1, addMultRows, show a ≠ i by omega]
      · intro a ha han hap j hj
        by_cases hai : a = i
        · subst hai
          rw [hlt a (by omega) j]
          simp [hM1, addMultRows, hj]
        · rw [hge a (by omega) han hap j hj, hp1]
          simp [hM1, addMultRows, hai]
    · rw [if_neg hc]
      obtain ⟨M', e, hs, hpp, hlt, hge⟩ := ih (i + 1) (by omega) M h1
      refine ⟨M', e, hs, hpp, fun a ha j => hlt a (by omega) j, ?_⟩
      intro a ha han hap j hj
      by_cases hai : a = i
      · subst hai
        have : M a col = 0 := by
          by_contra hne; exact hc ⟨hne, hap⟩
        rw [hlt a (by omega) j, this]; ring
      · exact hge a (by omega) han hap j hj

/-- the first `c` columns are those of the identity -/
def IdCols (n c : Nat) (M : Mat) : Prop := ∀ i < n, ∀ j < c, M i j = if i = j then 1 else 0

theorem ge_spec (n k c : Nat) (hk : c + k = n) (M : Mat) (hid : IdCols n c M) :
    (ge n k c c M = .error .outOfBounds ∧ ∃ v : Nat → ℚ, (∃ j < n, v j ≠ 0) ∧ Sol n M v 0) ∨
    ∃ M', ge n k c c M = .ok M' ∧ IdCols n n M' ∧ ∀ v h, Sol n M v h ↔ Sol n M' v h := by
  induction k generalizing c M with
  | zero =>
    right
    have : c = n := by omega
    subst this
    exact ⟨M, rfl, hid, fun _ _ => Iff.rfl⟩
  | succ k ih =>
    have hcn : c < n := by omega
    unfold ge
    rw [if_pos hcn]
    simp only
    obtain ⟨f1, f2, f3, f4⟩ := findRow_spec M c c (n - c)
    set r := findRow M c c (n - c) with hr
    rw [if_neg (by omega)]
    by_cases hrn : r = n
    · left
      rw [if_pos hrn]
      refine ⟨rfl, fun j => if j < c then - M j c else if j = c then 1 else 0, ⟨c, hcn, by simp⟩, ?_⟩
      intro i hi
      rw [zero_mul]
      have hsplit : ∀ j ∈ range n, M i j * (if j < c then - M j c else if j = c then 1 else 0) =
          (if j = i ∧ j < c then - M j c else 0) + (if j = c then M i c else 0) := by
        intro j _
        by_cases hj : j < c
        · rw [if_pos hj, hid i hi j hj]
          by_cases hij : i = j
          · subst hij; simp [hj, show i ≠ c by omega]
          · simp [hij, Ne.symm hij, show j ≠ c by omega]
        · by_cases hjc : j = c
          · subst hjc; simp
          · simp [hj, hjc]
      rw [sum_congr rfl hsplit, sum_add_distrib]
      simp only [sum_ite_eq', mem_range, hcn, if_true]
      by_cases hic : i < c
      · have : ∑ x ∈ range n, (if x = i ∧ x < c then - M x c else 0) = - M i c := by
          rw [sum_eq_single i]
          · simp [hic]
          · intro b _ hb; simp [hb]
          · intro h; exact absurd (mem_range.2 hi) h
        rw [this]; ring
      · have : ∑ x ∈ range n, (if x = i ∧ x < c then - M x c else 0) = 0 := by
          apply sum_eq_zero
          intro x _
          rw [if_neg]
          rintro ⟨h1, h2⟩; omega
        rw [this, zero_add]
        exact f3 i (by omega) (by omega)
    · rw [if_neg hrn]
      have hrlt : r < n := by omega
      have hpiv : M r c ≠ 0 := f4 (by omega)
      set M1 := swapRows M r c with hM1
      have hM1c : ∀ j, M1 c j = M r j := by
        intro j
        simp only [hM1, swapRows]
        by_cases h : c = r
        · rw [if_pos h, ← h]
        · rw [if_neg h, if_pos trivial]
      have hid1 : IdCols n c M1 := by
        intro i hi j hj
        simp only [hM1, swapRows]
        by_cases h1 : i = r
        · rw [if_pos h1, hid c hcn j hj]
          simp [show c ≠ j by omega, show i ≠ j by omega]
        · rw [if_neg h1]
          by_cases h2 : i = c
          · rw [if_pos h2, hid r hrlt j hj]
            simp [show r ≠ j by omega, show i ≠ j by omega]
          · rw [if_neg h2]; exact hid i hi j hj
      have hp1 : M1 c c ≠ 0 := by rw [hM1c]; exact hpiv
      rw [if_neg hp1]
      set M2 := timesRow n M1 c (1 / M1 c c) with hM2
      have hM2c : M2 c c = 1 := by
        simp only [hM2, timesRow, hcn.le, and_self, if_true]
        field_simp
      rw [if_neg (by simpa using hM2c)]
      have hid2 : IdCols n c M2 := by
        intro i hi j hj
        simp only [hM2, timesRow]
        by_cases h : i = c
        · subst h
          rw [if_pos ⟨rfl, by omega⟩, hid1 i hi j hj]
          simp [show i ≠ j by omega]
        · rw [if_neg (by rintro ⟨h1, _⟩; exact h h1)]
          exact hid1 i hi j hj
      obtain ⟨M3, e3, hs3, hp3, _, hge3⟩ := elim_spec n c c hcn hcn n 0 (by omega) M2 hM2c
      rw [e3]
      simp only
      have hid3 : IdCols n (c + 1) M3 := by
        intro i hi j hj
        by_cases hic : i = c
        · subst hic
          rw [hp3]
          by_cases hjc : j = i
          · subst hjc; simp [hM2c]
          · exact hid2 i hi j (by omega)
        · rw [hge3 i (by omega) hi hic j (by omega)]
          by_cases hjc : j = c
          · subst hjc; simp [hM2c, hic]
          · have hjc' : j < c := by omega
            rw [hid2 c hcn j hjc', hid2 i hi j hjc']
            simp [show c ≠ j by omega]
      have hsol : ∀ v h, Sol n M v h ↔ Sol n M3 v h := by
        intro v h
        rw [← hs3, hM2, sol_times (one_div_ne_zero hp1), hM1, sol_swap hrlt hcn]
      rcases ih (c + 1) (by omega) M3 hid3 with ⟨e, v, hv, hsv⟩ | ⟨M', e, hidn, hs⟩
      · left
        exact ⟨e, v, hv, (hsol v 0).2 hsv⟩
      · right
        exact ⟨M', e, hidn, fun v h => (hsol v h).trans (hs v h)⟩

theorem isSingular_false {n : Nat} {M : Mat} (h : IdCols n n M) : isSingular n M = false := by
  unfold isSingular
  simp only [List.any_eq_false, List.mem_range]
  intro i hi
  rw [Bool.not_eq_true, List.any_eq_false]
  intro k hk
  simp only [List.mem_range] at hk
  rw [h i hi k hk]
  by_cases hik : i = k <;> simp [hik]

theorem sol_id {n : Nat} {M : Mat} (h : IdCols n n M) (v : Nat → ℚ) (a : ℚ) :
    Sol n M v a ↔ ∀ i < n, v i = a * M i n := by
  unfold Sol
  have : ∀ i < n, ∑ j ∈ range n, M i j * v j = v i := by
    intro i hi
    rw [sum_eq_single i]
    · rw [h i hi i hi]; simp
    · intro j hj hji
      rw [h i hi j (mem_range.1 hj), if_neg (Ne.symm hji), zero_mul]
    · intro hn; exact absurd (mem_range.2 hi) hn
  constructor
  · intro hs i hi; rw [← this i hi]; exact hs i hi
  · intro hs i hi; rw [this i hi]; exact hs i hi

theorem powLoop_eq (x : ℚ) (j : Nat) : powLoop x j = x ^ j := by
  induction j with
  | zero => simp [powLoop]
  | succ j ih => rw [powLoop, ih, pow_succ]

/-- after adding points -/
theorem addAll_spec (s : St) (pts : List (ℚ × ℚ)) :
    (s.cnt + pts.length ≤ s.n → ∃ s', addAll s pts = .ok s' ∧ s'.n = s.n ∧
      (∀ i j, i < s.cnt → s'.mat i j = s.mat i j) ∧
      (∀ i j, s.cnt + pts.length ≤ i → s'.mat i j = s.mat i j) ∧
      (∀ k (hk : k < pts.length), (∀ j < s.n, s'.mat (s.cnt + k) j = pts[k].1 ^ j) ∧
        s'.mat (s.cnt + k) s.n = pts[k].2)) ∧
    (s.n < s.cnt + pts.length → s.cnt ≤ s.n → addAll s pts = .error .exit) := by
  induction pts generalizing s with
  | nil =>
    refine ⟨fun _ => ⟨s, rfl, rfl, fun _ _ _ => rfl, fun _ _ _ => rfl, fun k hk => by simp at hk⟩, ?_⟩
    intro h1 h2; simp at h1; omega
  | cons p ps ih =>
    unfold addAll addPoint
    by_cases hfull : s.cnt ≥ s.n
    · rw [if_pos hfull]
      refine ⟨fun h => by simp at h; omega, fun _ _ => rfl⟩
    · rw [if_neg hfull]
      simp only
      set s1 : St := { s with
        mat := fun i j => if i = s.cnt then (if j < s.n then powLoop p.1 j else if j = s.n then p.2 else s.mat i j) else s.mat i j,
        cnt := s.cnt + 1 } with hs1
      obtain ⟨ih1, ih2⟩ := ih s1
      constructor
      · intro h
        simp only [List.length_cons] at h
        obtain ⟨s', e, hn, hlt, hge, hk⟩ := ih1 (by simp [hs1]; omega)
        refine ⟨s', e, hn, ?_, ?_, ?_⟩
        · intro i j hi
          rw [hlt i j (by simp [hs1]; omega)]
          simp [hs1, show i ≠ s.cnt by omega]
        · intro i j hi
          simp only [List.length_cons] at hi
          rw [hge i j (by simp [hs1]; omega)]
          simp [hs1, show i ≠ s.cnt by omega]
        · intro k hkl
          cases k with
          | zero =>
            simp only [Nat.add_zero, List.getElem_cons_zero]
            constructor
            · intro j hj
              rw [hlt s.cnt j (by simp [hs1])]
              simp [hs1, hj, powLoop_eq]
            · rw [hlt s.cnt s.n (by simp [hs1])]
              simp [hs1]
          | succ k =>
            have := hk k (by simpa using hkl)
            simp only [List.getElem_cons_succ]
            have e1 : s1.cnt + k = s.cnt + (k + 1) := by simp [hs1]; omega
            rw [e1] at this
            exact this
      · intro h _
        simp only [List.length_cons] at h
        exact ih2 (by simp [hs1]; omega) (by simp [hs1]; omega)

theorem evalLoop_eq (poly : List ℚ) (x : ℚ) (i : Nat) (s : ℚ) :
    evalLoop poly x i s = s * x ^ i + ∑ j ∈ range i, poly.getD (j + 1) 0 * x ^ (j + 1) := by
  induction i generalizing s with
  | zero => simp [evalLoop]
  | succ i ih =>
    rw [evalLoop, ih, sum_range_succ]
    ring

end Latte.Interp
