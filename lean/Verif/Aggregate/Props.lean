import Verif.Aggregate.Model
import Verif.Aggregate.Kannan
import Mathlib.Data.Nat.Count
import Mathlib.Data.List.GetD
import Mathlib.Tactic.FieldSimp

/-!
Property C62: aggregation keeps the non-negative integer solutions.
-/

namespace Verif.Aggregate

open Verif.Files

/-! ### Specification -/

/-- `b + a·x` for a row `(b, a)` -/
def rowValue (row : List ℚ) (x : List ℤ) : ℚ := (List.zipWith (fun (a : ℚ) (z : ℤ) => a * z) row (1 :: x)).sum

/-- `x` is an integer solution of the system given by a matrix: `b + a·x = 0` for rows in `linset`, `≥ 0` for the
others. -/
def IsSol (m : QMatrix) (x : List ℤ) : Prop :=
  x.length + 1 = m.colsize ∧
    ∀ (i : ℕ) (row : List ℚ), m.rows[i]? = some row →
      if i + 1 ∈ m.linset then rowValue row x = 0 else 0 ≤ rowValue row x

/-- the data the aggregation asks for: in the rows `agg`, written as `(b, -a)`, all `b` and `a` are non-negative
integers -/
def Admissible (m : QMatrix) (agg : Finset ℕ) : Prop :=
  ∀ i, i + 1 ∈ agg → ∀ row, m.rows[i]? = some row →
    (0 ≤ row.getD 0 0 ∧ (row.getD 0 0).den = 1) ∧ ∀ a ∈ row.tail, a ≤ 0 ∧ a.den = 1

/-! ### Counting -/

theorem exists_count (p : ℕ → Prop) [DecidablePred p] (n : ℕ) : ∀ t, t < Nat.count p n →
    ∃ k, k < n ∧ p k ∧ Nat.count p k = t := by
  induction n with
  | zero => intro t h; simp at h
  | succ n ih =>
    intro t h
    rw [Nat.count_succ] at h
    by_cases hp : p n
    · rw [if_pos hp] at h
      rcases Nat.lt_or_eq_of_le (Nat.lt_succ_iff.1 h) with h | h
      · obtain ⟨k, h1, h2, h3⟩ := ih t h
        exact ⟨k, by omega, h2, h3⟩
      · exact ⟨n, by omega, hp, h.symm⟩
    · rw [if_neg hp] at h
      obtain ⟨k, h1, h2, h3⟩ := ih t h
      exact ⟨k, by omega, h2, h3⟩

theorem count_lt (p : ℕ → Prop) [DecidablePred p] {k n : ℕ} (hk : k < n) (hp : p k) : Nat.count p k < Nat.count p n := by
  have h1 : Nat.count p (k + 1) ≤ Nat.count p n := Nat.count_monotone p hk
  rw [Nat.count_succ, if_pos hp] at h1
  omega

theorem count_inj' (p : ℕ → Prop) [DecidablePred p] {j k : ℕ} (hj : p j) (hk : p k)
    (h : Nat.count p j = Nat.count p k) : j = k := by
  rcases lt_trichotomy j k with h' | h' | h'
  · have := count_lt p h' hj; omega
  · exact h'
  · have := count_lt p h' hk; omega

variable (m : QMatrix) (agg : Finset ℕ)

/-- row `k` is aggregated -/
abbrev isAgg (k : ℕ) : Prop := k + 1 ∈ agg
/-- row `k` is copied -/
abbrev isCopy (k : ℕ) : Prop := k + 1 ∉ agg
/-- row `k` is aggregated and gets a slack variable -/
abbrev isSlack (k : ℕ) : Prop := k + 1 ∈ agg ∧ k + 1 ∉ m.linset

/-! ### First pass -/

theorem scanA_spec (l : List ℚ) : ∀ a0 a1, scanA a0 l = some a1 →
    a0 ≤ a1 ∧ (∀ a ∈ l, a ≤ 0 ∧ a.den = 1) ∧ ∀ a ∈ l, -a.num ≤ a1 := by
  induction l with
  | nil => intro a0 a1 h; simp only [scanA, Option.some.injEq] at h; simp [h]
  | cons a l ih =>
    intro a0 a1 h
    rw [scanA] at h
    split at h
    · cases h
    · rename_i h1
      split at h
      · cases h
      · rename_i h2
        obtain ⟨h3, h4, h5⟩ := ih _ _ h
        push Not at h1 h2
        refine ⟨by split at h3 <;> omega, ?_, ?_⟩
        · intro x hx
          rcases List.mem_cons.1 hx with rfl | hx
          · exact ⟨h1, h2⟩
          · exact h4 x hx
        · intro x hx
          rcases List.mem_cons.1 hx with rfl | hx
          · split at h3 <;> omega
          · exact h5 x hx

theorem scanA_total (l : List ℚ) (hl : ∀ a ∈ l, a ≤ 0 ∧ a.den = 1) : ∀ a0, ∃ a1, scanA a0 l = some a1 := by
  induction l with
  | nil => intro a0; exact ⟨a0, rfl⟩
  | cons a l ih =>
    intro a0
    obtain ⟨h1, h2⟩ := hl a (List.mem_cons_self ..)
    rw [scanA, if_neg (not_lt.2 h1), if_neg (by simpa using h2)]
    exact ih (fun x hx => hl x (List.mem_cons_of_mem _ hx)) _

/-- what is known after the first `t` rows -/
def ScanInv (t : ℕ) (sc : Scan) : Prop :=
  sc.numSlacks = Nat.count (isSlack m agg) t ∧ 0 ≤ sc.bMax ∧ 0 ≤ sc.aMax ∧
    ∀ i, i < t → isAgg agg i →
      (0 ≤ entry m i 0 ∧ (entry m i 0).den = 1 ∧ (entry m i 0).num ≤ sc.bMax) ∧
      ∀ a ∈ (m.rows.getD i []).tail, a ≤ 0 ∧ a.den = 1 ∧ -a.num ≤ sc.aMax

theorem scan_inv (t : ℕ) : ∀ sc, (List.range t).foldlM (scanRow m agg) ⟨0, 0, 0⟩ = some sc → ScanInv m agg t sc := by
  induction t with
  | zero =>
    intro sc h
    simp only [List.range_zero, List.foldlM_nil] at h
    change some _ = some _ at h
    simp only [Option.some.injEq] at h
    subst h
    exact ⟨by simp, le_refl _, le_refl _, by simp⟩
  | succ t ih =>
    intro sc h
    rw [List.range_succ, List.foldlM_append] at h
    change Option.bind _ _ = some _ at h
    rw [Option.bind_eq_some_iff] at h
    obtain ⟨sc0, h0, h1⟩ := h
    obtain ⟨i1, i2, i3, i4⟩ := ih sc0 h0
    have h1 : scanRow m agg sc0 t = some sc := by
      simpa [List.foldlM] using h1
    unfold scanRow at h1
    by_cases hg : t + 1 ∈ agg
    · rw [if_pos hg] at h1
      simp only at h1
      split at h1
      · cases h1
      · rename_i hb
        split at h1
        · cases h1
        · rename_i hd
          rw [Option.map_eq_some_iff] at h1
          obtain ⟨a1, ha1, rfl⟩ := h1
          obtain ⟨s1, s2, s3⟩ := scanA_spec _ _ _ ha1
          push Not at hb hd
          have hbm : ∀ z : ℤ, z ≤ sc0.bMax →
              z ≤ if (List.getD (m.rows.getD t []) 0 0).num > sc0.bMax then (List.getD (m.rows.getD t []) 0 0).num
                else sc0.bMax := by intro z hz; split <;> omega
          refine ⟨?_, hbm 0 i2, by simp only; omega, ?_⟩
          · simp only
            rw [Nat.count_succ, i1]
            by_cases hlin : t + 1 ∈ m.linset
            · simp [isSlack, hlin]
            · simp [isSlack, hg, hlin]
          · intro i hi hgi
            rcases Nat.lt_or_eq_of_le (Nat.lt_succ_iff.1 hi) with h | rfl
            · obtain ⟨⟨j1, j2, j3⟩, j4⟩ := i4 i h hgi
              refine ⟨⟨j1, j2, hbm _ j3⟩, fun a ha => ?_⟩
              obtain ⟨k1, k2, k3⟩ := j4 a ha
              exact ⟨k1, k2, by simp only; omega⟩
            · refine ⟨⟨hb, hd, ?_⟩, fun a ha => ⟨(s2 a ha).1, (s2 a ha).2, s3 a ha⟩⟩
              simp only [entry]
              split <;> omega
    · rw [if_neg hg] at h1
      simp only [Option.some.injEq] at h1
      subst h1
      refine ⟨?_, i2, i3, ?_⟩
      · rw [Nat.count_succ, if_neg (by simp [isSlack, hg]), i1]; rfl
      · intro i hi hgi
        rcases Nat.lt_or_eq_of_le (Nat.lt_succ_iff.1 hi) with h | rfl
        · exact i4 i h hgi
        · exact absurd hgi hg

theorem scan_total (h : Admissible m agg) (t : ℕ) (ht : t ≤ m.rows.length) :
    ∃ sc, (List.range t).foldlM (scanRow m agg) ⟨0, 0, 0⟩ = some sc := by
  induction t with
  | zero => exact ⟨⟨0, 0, 0⟩, rfl⟩
  | succ t ih =>
    obtain ⟨sc0, h0⟩ := ih (by omega)
    rw [List.range_succ, List.foldlM_append]
    change ∃ sc, Option.bind _ _ = some sc
    rw [h0]
    simp only [Option.bind_some]
    suffices hs : ∃ sc, scanRow m agg sc0 t = some sc by simpa [List.foldlM] using hs
    unfold scanRow
    by_cases hg : t + 1 ∈ agg
    · rw [if_pos hg]
      have hr : m.rows[t]? = some (m.rows.getD t []) := by
        rw [List.getD_eq_getElem _ _ (by omega), List.getElem?_eq_getElem (by omega)]
      obtain ⟨⟨h1, h2⟩, h3⟩ := h t hg _ hr
      obtain ⟨a1, ha1⟩ := scanA_total _ h3 sc0.aMax
      simp only
      rw [if_neg (not_lt.2 h1), if_neg (by simpa using h2), ha1]
      exact ⟨_, rfl⟩
    · rw [if_neg hg]; exact ⟨_, rfl⟩

/-- the first pass accepts exactly the admissible data -/
theorem scan_isSome : (scan m agg).isSome ↔ Admissible m agg := by
  constructor
  · intro h
    obtain ⟨sc, hsc⟩ := Option.isSome_iff_exists.1 h
    obtain ⟨-, -, -, h4⟩ := scan_inv m agg _ sc hsc
    intro i hi row hrow
    have hlt : i < m.rows.length := (List.getElem?_eq_some_iff.1 hrow).1
    have hg : m.rows.getD i [] = row := by
      rw [List.getD_eq_getElem _ _ hlt]; exact (List.getElem?_eq_some_iff.1 hrow).2
    obtain ⟨⟨j1, j2, -⟩, j4⟩ := h4 i hlt hi
    unfold entry at j1 j2
    rw [hg] at j1 j2 j4
    exact ⟨⟨j1, j2⟩, fun a ha => ⟨(j4 a ha).1, (j4 a ha).2.1⟩⟩
  · intro h
    obtain ⟨sc, hsc⟩ := scan_total m agg h _ le_rfl
    unfold scan
    rw [hsc]; rfl

/-! ### Second pass -/

section fill

variable (aggIdx D : ℕ) (lam lmp1 : ℤ)

/-- multiplier of row `k` -/
def mult (k : ℕ) : ℤ := lmp1 + lam ^ (1 + Nat.count (isAgg agg) k)

/-- what row `k` of the old matrix puts into the new one -/
def contrib (k r c : ℕ) : ℚ :=
  if isAgg agg k then
    (if r = aggIdx ∧ c < m.colsize then (mult agg lam lmp1 k : ℚ) * entry m k c else 0) +
    (if isSlack m agg k then
      (if r = aggIdx ∧ c = m.colsize + Nat.count (isSlack m agg) k then -(mult agg lam lmp1 k : ℚ) else 0) +
      (if r = D + Nat.count (isSlack m agg) k ∧ c = m.colsize + Nat.count (isSlack m agg) k then 1 else 0)
     else 0)
  else if r = Nat.count (isCopy agg) k ∧ c < m.colsize then entry m k c else 0

/-- initial state -/
def fill0 : Fill :=
  { cells := fun _ _ => 0, linset := {aggIdx + 1}, li := lam, slackVar := m.colsize, slackRow := D, dest := 0 }

/-- state after `t` rows -/
def FillInv (t : ℕ) (st : Fill) : Prop :=
  st.dest = Nat.count (isCopy agg) t ∧ st.slackVar = m.colsize + Nat.count (isSlack m agg) t ∧
  st.slackRow = D + Nat.count (isSlack m agg) t ∧ st.li = lam ^ (1 + Nat.count (isAgg agg) t) ∧
  (∀ r c, st.cells r c = ∑ k ∈ Finset.range t, contrib m agg aggIdx D lam lmp1 k r c) ∧
  ∀ r, r ∈ st.linset ↔ r = aggIdx + 1 ∨ ∃ k, k < t ∧ isCopy agg k ∧ k + 1 ∈ m.linset ∧ r = Nat.count (isCopy agg) k + 1

theorem fill_inv (n : ℕ) (hD : D = Nat.count (isCopy agg) n) (hA : aggIdx = D + Nat.count (isSlack m agg) n) :
    ∀ t, t ≤ n → FillInv m agg aggIdx D lam lmp1 t
      ((List.range t).foldl (fillRow m agg aggIdx lam lmp1) (fill0 m aggIdx D lam)) := by
  intro t
  induction t with
  | zero => intro _; simp [FillInv, fill0]
  | succ t ih =>
    intro ht
    rw [List.range_succ, List.foldl_append, List.foldl_cons, List.foldl_nil]
    obtain ⟨i1, i2, i3, i4, i5, i6⟩ := ih (by omega)
    set st := (List.range t).foldl (fillRow m agg aggIdx lam lmp1) (fill0 m aggIdx D lam) with hst
    by_cases hg : t + 1 ∈ agg
    · have hcopy : ¬ isCopy agg t := by simpa [isCopy] using hg
      by_cases hs : t + 1 ∈ m.linset
      · have hsl : ¬ isSlack m agg t := by simp [isSlack, hs]
        unfold fillRow
        rw [if_pos hg]
        simp only [hs, not_true_eq_false, if_false]
        refine ⟨?_, ?_, ?_, ?_, ?_, ?_⟩
        · simp only; rw [Nat.count_succ, if_neg hcopy, i1]; rfl
        · simp only; rw [Nat.count_succ, if_neg hsl, i2]; rfl
        · simp only; rw [Nat.count_succ, if_neg hsl, i3]; rfl
        · simp only; rw [Nat.count_succ, if_pos hg, i4]; ring
        · intro r c
          simp only
          rw [Finset.sum_range_succ, ← i5, contrib, if_pos hg, if_neg hsl, mult, i4]
          split <;> simp
        · intro r
          simp only
          rw [i6]
          constructor
          · rintro (h | ⟨k, h1, h2⟩)
            · exact Or.inl h
            · exact Or.inr ⟨k, by omega, h2⟩
          · rintro (h | ⟨k, h1, h2, h3⟩)
            · exact Or.inl h
            · refine Or.inr ⟨k, ?_, h2, h3⟩
              rcases Nat.lt_or_eq_of_le (Nat.lt_succ_iff.1 h1) with h | rfl
              · exact h
              · exact absurd h2 hcopy
      · have hsl : isSlack m agg t := ⟨hg, hs⟩
        have hlt : Nat.count (isSlack m agg) t < Nat.count (isSlack m agg) n := count_lt _ (by omega) hsl
        have hz : ∀ r, (r = aggIdx ∨ r = D + Nat.count (isSlack m agg) t) →
            ∑ k ∈ Finset.range t, contrib m agg aggIdx D lam lmp1 k r (m.colsize + Nat.count (isSlack m agg) t) = 0 := by
          intro r hr
          refine Finset.sum_eq_zero fun k hk => ?_
          rw [Finset.mem_range] at hk
          unfold contrib
          by_cases hgk : isAgg agg k
          · rw [if_pos hgk, if_neg (by omega), zero_add]
            by_cases hsk : isSlack m agg k
            · have := count_lt (isSlack m agg) hk hsk
              rw [if_pos hsk, if_neg (by omega), if_neg (by omega), zero_add]
            · rw [if_neg hsk]
          · rw [if_neg hgk, if_neg (by omega)]
        unfold fillRow
        rw [if_pos hg]
        simp only [hs, not_false_eq_true, if_true]
        refine ⟨?_, ?_, ?_, ?_, ?_, ?_⟩
        · simp only; rw [Nat.count_succ, if_neg hcopy, i1]; rfl
        · simp only; rw [Nat.count_succ, if_pos hsl, i2]; rfl
        · simp only; rw [Nat.count_succ, if_pos hsl, i3]; rfl
        · simp only; rw [Nat.count_succ, if_pos hg, i4]; ring
        · intro r c
          simp only [setCell]
          rw [Finset.sum_range_succ, i2, i3, contrib, if_pos hg, if_pos hsl, mult, i4]
          by_cases hc : c = m.colsize + Nat.count (isSlack m agg) t
          · subst hc
            rw [if_neg (c := r = aggIdx ∧ m.colsize + Nat.count (isSlack m agg) t < m.colsize) (by omega)]
            by_cases hr : r = D + Nat.count (isSlack m agg) t
            · have hra : r ≠ aggIdx := by omega
              simp [hr, hz (D + Nat.count (isSlack m agg) t) (Or.inr rfl)]
              omega
            · by_cases hra : r = aggIdx
              · have := hz aggIdx (Or.inl rfl)
                subst hra
                simp [hr, this]
              · simp [hr, hra, i5]
          · simp only [hc, and_false, if_false, add_zero, ← i5]
            split <;> simp
        · intro r
          simp only
          rw [i6]
          constructor
          · rintro (h | ⟨k, h1, h2⟩)
            · exact Or.inl h
            · exact Or.inr ⟨k, by omega, h2⟩
          · rintro (h | ⟨k, h1, h2, h3⟩)
            · exact Or.inl h
            · refine Or.inr ⟨k, ?_, h2, h3⟩
              rcases Nat.lt_or_eq_of_le (Nat.lt_succ_iff.1 h1) with h | rfl
              · exact h
              · exact absurd h2 hcopy
    · have hcopy : isCopy agg t := hg
      have hsl : ¬ isSlack m agg t := fun h => hg h.1
      have hlt : Nat.count (isCopy agg) t < Nat.count (isCopy agg) n := count_lt _ (by omega) hcopy
      have hz : ∀ c, c < m.colsize →
          ∑ k ∈ Finset.range t, contrib m agg aggIdx D lam lmp1 k (Nat.count (isCopy agg) t) c = 0 := by
        intro c hc
        refine Finset.sum_eq_zero fun k hk => ?_
        rw [Finset.mem_range] at hk
        unfold contrib
        by_cases hgk : isAgg agg k
        · rw [if_pos hgk, if_neg (by omega), zero_add]
          by_cases hsk : isSlack m agg k
          · rw [if_pos hsk, if_neg (by omega), if_neg (by omega), zero_add]
          · rw [if_neg hsk]
        · have := count_lt (isCopy agg) hk hgk
          rw [if_neg hgk, if_neg (by omega)]
      unfold fillRow
      rw [if_neg hg]
      refine ⟨?_, ?_, ?_, ?_, ?_, ?_⟩
      · simp only; rw [Nat.count_succ, if_pos hcopy, i1]
      · simp only; rw [Nat.count_succ, if_neg hsl, i2]; rfl
      · simp only; rw [Nat.count_succ, if_neg hsl, i3]; rfl
      · simp only; rw [Nat.count_succ, if_neg hg, i4]; rfl
      · intro r c
        simp only
        rw [Finset.sum_range_succ, i1, contrib, if_neg hg]
        by_cases h : r = Nat.count (isCopy agg) t ∧ c < m.colsize
        · rw [if_pos h, if_pos h, h.1, hz c h.2, zero_add]
        · rw [if_neg h, if_neg h, i5, add_zero]
      · intro r
        simp only
        rw [i1]
        constructor
        · intro h
          by_cases hl : t + 1 ∈ m.linset
          · rw [if_pos hl, Finset.mem_insert] at h
            rcases h with h | h
            · exact Or.inr ⟨t, by omega, hcopy, hl, h⟩
            · rcases (i6 r).1 h with h | ⟨k, h1, h2⟩
              · exact Or.inl h
              · exact Or.inr ⟨k, by omega, h2⟩
          · rw [if_neg hl] at h
            rcases (i6 r).1 h with h | ⟨k, h1, h2⟩
            · exact Or.inl h
            · exact Or.inr ⟨k, by omega, h2⟩
        · intro h
          have hh : (r = aggIdx + 1 ∨ ∃ k, k < t ∧ isCopy agg k ∧ k + 1 ∈ m.linset ∧ r = Nat.count (isCopy agg) k + 1) ∨
              (t + 1 ∈ m.linset ∧ r = Nat.count (isCopy agg) t + 1) := by
            rcases h with h | ⟨k, h1, h2, h3, h4⟩
            · exact Or.inl (Or.inl h)
            · rcases Nat.lt_or_eq_of_le (Nat.lt_succ_iff.1 h1) with h | rfl
              · exact Or.inl (Or.inr ⟨k, h, h2, h3, h4⟩)
              · exact Or.inr ⟨h3, h4⟩
          rcases hh with h | ⟨hl, h⟩
          · split
            · exact Finset.mem_insert_of_mem ((i6 r).2 h)
            · exact (i6 r).2 h
          · rw [if_pos hl, h]; exact Finset.mem_insert_self _ _


/-- `b + a·x` of row `k` of the old matrix at a point given by its coordinates (coordinate 0 is 1) -/
def aval (p : ℕ → ℤ) (k : ℕ) : ℚ := ∑ c ∈ Finset.range m.colsize, entry m k c * p c

/-- value at a point of what row `k` puts into row `r` -/
theorem contrib_value (S : ℕ) (p : ℕ → ℤ) (k r : ℕ) (hk : isSlack m agg k → Nat.count (isSlack m agg) k < S) :
    ∑ c ∈ Finset.range (m.colsize + S), contrib m agg aggIdx D lam lmp1 k r c * p c =
      if isAgg agg k then
        (if r = aggIdx then (mult agg lam lmp1 k : ℚ) *
          (aval m p k - if isSlack m agg k then (p (m.colsize + Nat.count (isSlack m agg) k) : ℚ) else 0) else 0) +
        (if isSlack m agg k ∧ r = D + Nat.count (isSlack m agg) k then
          (p (m.colsize + Nat.count (isSlack m agg) k) : ℚ) else 0)
      else if r = Nat.count (isCopy agg) k then aval m p k else 0 := by
  have hA : ∀ q : ℚ, ∑ c ∈ Finset.range (m.colsize + S), (if c < m.colsize then q * entry m k c else 0) * p c =
      q * aval m p k := by
    intro q
    rw [Finset.sum_range_add, aval, Finset.mul_sum]
    rw [Finset.sum_congr rfl (g := fun c => q * (entry m k c * p c)) (by
      intro c hc; rw [if_pos (Finset.mem_range.1 hc)]; ring)]
    rw [Finset.sum_eq_zero (s := Finset.range S) (by intro c _; rw [if_neg (by omega), zero_mul]), add_zero]
  have hU : ∀ q : ℚ, isSlack m agg k → ∑ c ∈ Finset.range (m.colsize + S),
      (if c = m.colsize + Nat.count (isSlack m agg) k then q else 0) * p c =
      q * p (m.colsize + Nat.count (isSlack m agg) k) := by
    intro q hs
    rw [Finset.sum_eq_single (m.colsize + Nat.count (isSlack m agg) k)]
    · rw [if_pos rfl]
    · intro c _ hc; rw [if_neg hc, zero_mul]
    · intro h; exact absurd (Finset.mem_range.2 (by have := hk hs; omega)) h
  by_cases hg : isAgg agg k
  · simp only [contrib, hg, if_true]
    by_cases hs : isSlack m agg k
    · have hs' : ∀ q : Prop, (isSlack m agg k ∧ q) = q := fun q => propext ⟨fun h => h.2, fun h => ⟨hs, h⟩⟩
      simp only [if_pos hs, hs']
      simp only [add_mul, Finset.sum_add_distrib]
      rw [← add_assoc]
      congr 1
      · by_cases hr : r = aggIdx
        · simp only [hr, true_and, if_true]
          rw [hA, hU _ hs]; ring
        · simp [hr]
      · by_cases hr : r = D + Nat.count (isSlack m agg) k
        · simp only [hr, true_and, if_true]
          rw [hU _ hs]; ring
        · simp [hr]
    · have hs' : ∀ q : Prop, (isSlack m agg k ∧ q) = False := fun q => propext ⟨fun h => hs h.1, fun h => h.elim⟩
      simp only [if_neg hs, hs', if_false, add_zero, sub_zero]
      by_cases hr : r = aggIdx
      · simp only [hr, true_and, if_true]
        rw [hA]
      · simp [hr]
  · simp only [contrib, hg, if_false]
    by_cases hr : r = Nat.count (isCopy agg) k
    · simp only [hr, true_and, if_true]
      have := hA 1
      simpa using this
    · simp [hr]

/-- value of row `r` of the new matrix -/
def newval (n S : ℕ) (p : ℕ → ℤ) (r : ℕ) : ℚ :=
  ∑ c ∈ Finset.range (m.colsize + S), (∑ k ∈ Finset.range n, contrib m agg aggIdx D lam lmp1 k r c) * p c

theorem newval_eq (n : ℕ) (p : ℕ → ℤ) (r : ℕ) :
    newval m agg aggIdx D lam lmp1 n (Nat.count (isSlack m agg) n) p r = ∑ k ∈ Finset.range n,
      if isAgg agg k then
        (if r = aggIdx then (mult agg lam lmp1 k : ℚ) *
          (aval m p k - if isSlack m agg k then (p (m.colsize + Nat.count (isSlack m agg) k) : ℚ) else 0) else 0) +
        (if isSlack m agg k ∧ r = D + Nat.count (isSlack m agg) k then
          (p (m.colsize + Nat.count (isSlack m agg) k) : ℚ) else 0)
      else if r = Nat.count (isCopy agg) k then aval m p k else 0 := by
  unfold newval
  simp only [Finset.sum_mul]
  rw [Finset.sum_comm]
  refine Finset.sum_congr rfl fun k hk => ?_
  exact contrib_value m agg aggIdx D lam lmp1 _ p k r
    (fun hs => count_lt _ (Finset.mem_range.1 hk) hs)

theorem newval_copy (n : ℕ) (hD : D = Nat.count (isCopy agg) n) (hA : aggIdx = D + Nat.count (isSlack m agg) n)
    (p : ℕ → ℤ) (k : ℕ) (hk : k < n) (hc : isCopy agg k) :
    newval m agg aggIdx D lam lmp1 n (Nat.count (isSlack m agg) n) p (Nat.count (isCopy agg) k) = aval m p k := by
  have hlt := count_lt (isCopy agg) hk hc
  rw [newval_eq, Finset.sum_eq_single k]
  · rw [if_neg hc, if_pos rfl]
  · intro j hj hjk
    by_cases hg : isAgg agg j
    · rw [if_pos hg, if_neg (by omega), if_neg (by omega), add_zero]
    · rw [if_neg hg, if_neg]
      intro h
      exact hjk (count_inj' _ hc hg h).symm
  · intro h; exact absurd (Finset.mem_range.2 hk) h

theorem newval_slack (n : ℕ) (hD : D = Nat.count (isCopy agg) n) (hA : aggIdx = D + Nat.count (isSlack m agg) n)
    (p : ℕ → ℤ) (k : ℕ) (hk : k < n) (hs : isSlack m agg k) :
    newval m agg aggIdx D lam lmp1 n (Nat.count (isSlack m agg) n) p (D + Nat.count (isSlack m agg) k) =
      p (m.colsize + Nat.count (isSlack m agg) k) := by
  have hlt := count_lt (isSlack m agg) hk hs
  rw [newval_eq, Finset.sum_eq_single k]
  · rw [if_pos hs.1, if_neg (by omega), zero_add, if_pos ⟨hs, rfl⟩]
  · intro j hj hjk
    rw [Finset.mem_range] at hj
    by_cases hg : isAgg agg j
    · rw [if_pos hg, if_neg (by omega), if_neg, add_zero]
      rintro ⟨h1, h2⟩
      exact hjk (count_inj' _ hs h1 (by omega)).symm
    · have := count_lt (isCopy agg) hj hg
      rw [if_neg hg, if_neg (by omega)]
  · intro h; exact absurd (Finset.mem_range.2 hk) h

theorem newval_agg (n : ℕ) (hD : D = Nat.count (isCopy agg) n) (hA : aggIdx = D + Nat.count (isSlack m agg) n)
    (p : ℕ → ℤ) :
    newval m agg aggIdx D lam lmp1 n (Nat.count (isSlack m agg) n) p aggIdx =
      ∑ k ∈ (Finset.range n).filter (isAgg agg), (mult agg lam lmp1 k : ℚ) *
        (aval m p k - if isSlack m agg k then (p (m.colsize + Nat.count (isSlack m agg) k) : ℚ) else 0) := by
  rw [newval_eq, Finset.sum_filter]
  refine Finset.sum_congr rfl fun k hk => ?_
  rw [Finset.mem_range] at hk
  by_cases hg : isAgg agg k
  · rw [if_pos hg, if_pos hg, if_pos rfl,
      if_neg (c := isSlack m agg k ∧ aggIdx = D + Nat.count (isSlack m agg) k), add_zero]
    rintro ⟨h1, h2⟩
    have := count_lt (isSlack m agg) hk h1
    omega
  · have := count_lt (isCopy agg) hk hg
    rw [if_neg hg, if_neg hg, if_neg (by omega)]

end fill

/-! ### Points -/

/-- coordinates of a point, with 1 in front -/
def coord (x : List ℤ) (c : ℕ) : ℤ := (1 :: x).getD c 0

theorem sum_zipWith_range (row : List ℚ) : ∀ (p : List ℤ) (n : ℕ), row.length ≤ n → 
    (List.zipWith (fun (a : ℚ) (z : ℤ) => a * z) row p).sum =
      ∑ c ∈ Finset.range n, row.getD c 0 * ((p.getD c 0 : ℤ) : ℚ) := by
  induction row with
  | nil => intro p n _; simp
  | cons a row ih =>
    intro p n hn
    cases n with
    | zero => simp at hn
    | succ n =>
      cases p with
      | nil => simp
      | cons z p =>
        rw [Finset.sum_range_succ']
        simp only [List.zipWith_cons_cons, List.sum_cons, List.getD_cons_zero, List.getD_cons_succ]
        rw [ih p n (by simpa using hn)]
        ring

theorem rowValue_eq (row : List ℚ) (x : List ℤ) (n : ℕ) (h : row.length ≤ n) :
    rowValue row x = ∑ c ∈ Finset.range n, row.getD c 0 * (coord x c : ℚ) :=
  sum_zipWith_range row (1 :: x) n h

end Verif.Aggregate
