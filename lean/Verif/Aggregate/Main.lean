import Verif.Aggregate.Props

/-!
Property C62: the theorems.
-/

namespace Verif.Aggregate

open Verif.Files

variable (m : QMatrix) (agg : Finset ℕ)

theorem count_add (n : ℕ) : Nat.count (isAgg agg) n + Nat.count (isCopy agg) n = n := by
  induction n with
  | zero => simp
  | succ n ih =>
    rw [Nat.count_succ, Nat.count_succ]
    by_cases h : n + 1 ∈ agg
    · rw [if_pos h, if_neg (by simpa using h)]; omega
    · rw [if_neg h, if_pos h]; omega

theorem card_agg (n : ℕ) (h : ∀ i ∈ agg, 1 ≤ i ∧ i ≤ n) : agg.card = Nat.count (isAgg agg) n := by
  rw [Nat.count_eq_card_filter_range, ← Finset.card_image_of_injective ((Finset.range n).filter (isAgg agg)) Nat.succ_injective]
  congr 1
  ext i
  simp only [Finset.mem_image, Finset.mem_filter, Finset.mem_range]
  constructor
  · intro hi
    have := h i hi
    refine ⟨i - 1, ⟨by omega, ?_⟩, by simp only [Nat.succ_eq_add_one]; omega⟩
    change i - 1 + 1 ∈ agg
    rw [show i - 1 + 1 = i by omega]; exact hi
  · rintro ⟨k, ⟨-, hk⟩, rfl⟩; exact hk

/-- the number of rows that get slack variables -/
def slacks : ℕ := Nat.count (isSlack m agg) m.rows.length

/-- the condition on the value of row `k` -/
def Cond (k : ℕ) (v : ℚ) : Prop := if k + 1 ∈ m.linset then v = 0 else 0 ≤ v

theorem entry_eq (row : List ℚ) (k : ℕ) (h : m.rows[k]? = some row) (c : ℕ) : entry m k c = row.getD c 0 := by
  have : m.rows.getD k [] = row := by rw [List.getD_eq_getElem?_getD, h]; rfl
  rw [entry, this]

theorem isSol_old (hrow : ∀ row ∈ m.rows, row.length = m.colsize) (x : List ℤ) :
    IsSol m x ↔ x.length + 1 = m.colsize ∧ ∀ k, k < m.rows.length → Cond m k (aval m (coord x) k) := by
  unfold IsSol
  refine and_congr_right fun hx => ?_
  have hv : ∀ k row, m.rows[k]? = some row → rowValue row x = aval m (coord x) k := by
    intro k row h
    rw [rowValue_eq row x m.colsize (hrow row (List.mem_of_getElem? h)).le, aval]
    exact Finset.sum_congr rfl fun c _ => by rw [entry_eq m row k h]
  constructor
  · intro h k hk
    have hr : m.rows[k]? = some m.rows[k] := List.getElem?_eq_getElem hk
    have := h k _ hr
    rw [hv k _ hr] at this
    exact this
  · intro h k row hr
    rw [hv k row hr]
    exact h k (List.getElem?_eq_some_iff.1 hr).1

/-- value of lambda -/
def lambdaOf (sc : Scan) : ℤ := 3 * (agg.card : ℤ) * ((m.colsize : ℤ) - 1) * sc.aMax * sc.bMax

/-- the multiplier of row `k` -/
def multOf (sc : Scan) (k : ℕ) : ℤ := mult agg (lambdaOf m agg sc) (lambdaOf m agg sc ^ (agg.card + 1)) k

theorem isSol_new (hagg : ∀ i ∈ agg, 1 ≤ i ∧ i ≤ m.rows.length) (sc : Scan) (hsc : scan m agg = some sc) :
    ∃ N, kannan m agg = some N ∧ N.colsize = m.colsize + slacks m agg ∧
      N.rows.length + agg.card = m.rows.length + slacks m agg + 1 ∧
      N.rows.length ∈ N.linset ∧
      ∀ z : List ℤ, IsSol N z ↔ z.length + 1 = m.colsize + slacks m agg ∧
        (∀ k, k < m.rows.length → isCopy agg k → Cond m k (aval m (coord z) k)) ∧
        (∀ t, t < slacks m agg → 0 ≤ coord z (m.colsize + t)) ∧
        ∑ k ∈ (Finset.range m.rows.length).filter (isAgg agg), (multOf m agg sc k : ℚ) *
          (aval m (coord z) k -
            if isSlack m agg k then (coord z (m.colsize + Nat.count (isSlack m agg) k) : ℚ) else 0) = 0 := by
  set n := m.rows.length with hn
  have hcard := card_agg agg n hagg
  have hadd := count_add agg n
  obtain ⟨hS, -, -, -⟩ := scan_inv m agg n sc hsc
  set S := Nat.count (isSlack m agg) n with hSdef
  set D := Nat.count (isCopy agg) n with hDdef
  have hSS : slacks m agg = S := rfl
  set aggIdx := D + S with hAdef
  have hnr : n + sc.numSlacks - agg.card + 1 = D + S + 1 := by rw [hS, hcard]; omega
  have hnk : n - agg.card = D := by rw [hcard]; omega
  set st := (List.range n).foldl (fillRow m agg aggIdx (lambdaOf m agg sc) (lambdaOf m agg sc ^ (agg.card + 1)))
    (fill0 m aggIdx D (lambdaOf m agg sc)) with hst
  obtain ⟨-, -, -, -, i5, i6⟩ := fill_inv m agg aggIdx D (lambdaOf m agg sc) (lambdaOf m agg sc ^ (agg.card + 1)) n rfl rfl n le_rfl
  rw [← hst] at i5 i6
  have hk : kannan m agg = some
      { colsize := m.colsize + S
        rows := (List.range (D + S + 1)).map fun r => (List.range (m.colsize + S)).map fun c => st.cells r c
        linset := st.linset } := by
    unfold kannan
    rw [hsc]
    simp only [Option.map_some, Option.some.injEq]
    rw [← hn, hnr, hnk, hS]
    rfl
  refine ⟨_, hk, rfl, ?_, ?_, ?_⟩
  · simp only [List.length_map, List.length_range]; omega
  · simp only [List.length_map, List.length_range]
    rw [i6]; exact Or.inl rfl
  intro z
  have hval : ∀ r, r < D + S + 1 →
      rowValue ((List.range (m.colsize + S)).map fun c => st.cells r c) z =
      newval m agg aggIdx D (lambdaOf m agg sc) (lambdaOf m agg sc ^ (agg.card + 1)) n S (coord z) r := by
    intro r _
    rw [rowValue_eq _ z (m.colsize + S) (by simp), newval]
    refine Finset.sum_congr rfl fun c hc => ?_
    rw [Finset.mem_range] at hc
    rw [← i5]
    simp [hc]
  have hlinC : ∀ k, k < n → isCopy agg k → (Nat.count (isCopy agg) k + 1 ∈ st.linset ↔ k + 1 ∈ m.linset) := by
    intro k hk hc
    have hlt := count_lt (isCopy agg) hk hc
    rw [i6]
    constructor
    · rintro (h | ⟨j, h1, h2, h3, h4⟩)
      · omega
      · have := count_inj' (isCopy agg) hc h2 (by omega)
        rw [this]; exact h3
    · intro h; exact Or.inr ⟨k, hk, hc, h, rfl⟩
  have hlinS : ∀ t, t < S → ¬ (D + t + 1 ∈ st.linset) := by
    intro t ht h
    rcases (i6 _).1 h with h | ⟨j, h1, h2, h3, h4⟩
    · omega
    · have := count_lt (isCopy agg) h1 h2
      omega
  have hlinA : aggIdx + 1 ∈ st.linset := (i6 _).2 (Or.inl rfl)
  unfold IsSol
  simp only
  rw [hSS]
  refine and_congr_right fun hz => ?_
  have hcell : ∀ (r : ℕ) (row : List ℚ),
      ((List.range (D + S + 1)).map fun r => (List.range (m.colsize + S)).map fun c => st.cells r c)[r]? = some row ↔
        r < D + S + 1 ∧ row = (List.range (m.colsize + S)).map fun c => st.cells r c := by
    intro r row
    rw [List.getElem?_map, Option.map_eq_some_iff]
    constructor
    · rintro ⟨a, ha, rfl⟩
      rw [List.getElem?_eq_some_iff] at ha
      obtain ⟨h1, h2⟩ := ha
      rw [List.getElem_range] at h2
      subst h2
      exact ⟨by simpa using h1, rfl⟩
    · rintro ⟨h1, rfl⟩
      exact ⟨r, by rw [List.getElem?_eq_some_iff]; exact ⟨by simpa using h1, by simp⟩, rfl⟩
  constructor
  · intro h
    have h' : ∀ r, r < D + S + 1 → if r + 1 ∈ st.linset then
        newval m agg aggIdx D (lambdaOf m agg sc) (lambdaOf m agg sc ^ (agg.card + 1)) n S (coord z) r = 0
        else 0 ≤ newval m agg aggIdx D (lambdaOf m agg sc) (lambdaOf m agg sc ^ (agg.card + 1)) n S (coord z) r := by
      intro r hr
      have := h r _ ((hcell r _).2 ⟨hr, rfl⟩)
      rwa [hval r hr] at this
    refine ⟨?_, ?_, ?_⟩
    · intro k hk hc
      have hlt := count_lt (isCopy agg) hk hc
      have := h' (Nat.count (isCopy agg) k) (by omega)
      rw [newval_copy m agg aggIdx D _ _ n rfl rfl (coord z) k hk hc] at this
      simp only [hlinC k hk hc] at this
      exact this
    · intro t ht
      obtain ⟨k, hk, hs, rfl⟩ := exists_count (isSlack m agg) n t ht
      have := h' (D + Nat.count (isSlack m agg) k) (by omega)
      rw [if_neg (hlinS _ ht), newval_slack m agg aggIdx D _ _ n rfl rfl (coord z) k hk hs] at this
      exact_mod_cast this
    · have := h' aggIdx (by omega)
      rw [if_pos hlinA, newval_agg m agg aggIdx D _ _ n rfl rfl (coord z)] at this
      exact this
  · rintro ⟨h1, h2, h3⟩ r row hrow
    obtain ⟨hr, rfl⟩ := (hcell r row).1 hrow
    rw [hval r hr]
    rcases lt_or_ge r D with h | h
    · obtain ⟨k, hk, hc, rfl⟩ := exists_count (isCopy agg) n r h
      rw [newval_copy m agg aggIdx D _ _ n rfl rfl (coord z) k hk hc]
      simp only [hlinC k hk hc]
      exact h1 k hk hc
    · rcases lt_or_ge r (D + S) with h' | h'
      · obtain ⟨k, hk, hs, he⟩ := exists_count (isSlack m agg) n (r - D) (by omega)
        have hr' : r = D + Nat.count (isSlack m agg) k := by omega
        subst hr'
        rw [if_neg (hlinS _ (by omega)), newval_slack m agg aggIdx D _ _ n rfl rfl (coord z) k hk hs]
        exact_mod_cast h2 _ (by omega)
      · have hr' : r = aggIdx := by omega
        subst hr'
        rw [if_pos hlinA, newval_agg m agg aggIdx D _ _ n rfl rfl (coord z)]
        exact h3

/-! ### Integrality and bounds -/

/-- integer value of row `k` -/
def zval (p : ℕ → ℤ) (k : ℕ) : ℤ := ∑ c ∈ Finset.range m.colsize, (entry m k c).num * p c

theorem entry_cases (k c : ℕ) (hc : 1 ≤ c) : entry m k c = 0 ∨ entry m k c ∈ (m.rows.getD k []).tail := by
  unfold entry
  rcases lt_or_ge c (m.rows.getD k []).length with h | h
  · right
    revert h
    generalize m.rows.getD k [] = row
    intro h
    rw [List.getD_eq_getElem _ _ h]
    cases row with
    | nil => simp at h
    | cons a l =>
      obtain ⟨c, rfl⟩ : ∃ d, c = d + 1 := ⟨c - 1, by omega⟩
      simp only [List.getElem_cons_succ, List.tail_cons]
      exact List.getElem_mem _
  · left
    rw [List.getD_eq_default _ _ h]

theorem aval_eq_zval (sc : Scan) (n : ℕ) (h : ScanInv m agg n sc) (p : ℕ → ℤ) (k : ℕ) (hk : k < n) (hg : isAgg agg k) :
    aval m p k = (zval m p k : ℚ) := by
  obtain ⟨-, -, -, h4⟩ := h
  obtain ⟨⟨-, hd, -⟩, ht⟩ := h4 k hk hg
  unfold aval zval
  push_cast
  refine Finset.sum_congr rfl fun c _ => ?_
  have hden : (entry m k c).den = 1 := by
    rcases Nat.eq_zero_or_pos c with rfl | hc
    · exact hd
    · rcases entry_cases m k c hc with h | h
      · rw [h]; rfl
      · exact (ht _ h).2.1
  congr 1
  exact (Rat.den_eq_one_iff _).1 hden |>.symm

theorem zval_le (sc : Scan) (n : ℕ) (h : ScanInv m agg n sc) (p : ℕ → ℤ) (hp0 : p 0 = 1)
    (hp : ∀ c, c < m.colsize → 0 ≤ p c) (k : ℕ) (hk : k < n) (hg : isAgg agg k) : zval m p k ≤ sc.bMax := by
  obtain ⟨-, hb, -, h4⟩ := h
  obtain ⟨⟨-, -, hbm⟩, ht⟩ := h4 k hk hg
  unfold zval
  rcases Nat.eq_zero_or_pos m.colsize with h0 | h0
  · rw [h0]; simpa using hb
  · obtain ⟨d, hd⟩ : ∃ d, m.colsize = d + 1 := ⟨m.colsize - 1, by omega⟩
    rw [hd, Finset.sum_range_succ', hp0, mul_one]
    have : ∑ c ∈ Finset.range d, (entry m k (c + 1)).num * p (c + 1) ≤ 0 := by
      refine Finset.sum_nonpos fun c hc => ?_
      rw [Finset.mem_range] at hc
      have h1 : (entry m k (c + 1)).num ≤ 0 := by
        rcases entry_cases m k (c + 1) (by omega) with h | h
        · rw [h]; simp
        · exact Rat.num_nonpos.2 (ht _ h).1
      exact mul_nonpos_of_nonpos_of_nonneg h1 (hp (c + 1) (by omega))
    omega

theorem coord_append (x s : List ℤ) (c : ℕ) (hc : c < x.length + 1) : coord (x ++ s) c = coord x c := by
  unfold coord
  rw [← List.cons_append, List.getD_append _ _ _ _ (by simpa using hc)]

theorem coord_append_right (x s : List ℤ) (t : ℕ) : coord (x ++ s) (x.length + 1 + t) = s.getD t 0 := by
  unfold coord
  rw [← List.cons_append, List.getD_append_right _ _ _ _ (by simp)]
  congr 1
  simp

theorem coord_nonneg (x : List ℤ) (hx : ∀ z ∈ x, 0 ≤ z) (c : ℕ) : 0 ≤ coord x c := by
  unfold coord
  rcases lt_or_ge c (1 :: x).length with h | h
  · rw [List.getD_eq_getElem _ _ h]
    have := List.getElem_mem h
    rcases List.mem_cons.1 this with h' | h'
    · rw [h']; decide
    · exact hx _ h'
  · rw [List.getD_eq_default _ _ h]

theorem aval_append (x s : List ℤ) (hx : x.length + 1 = m.colsize) (k : ℕ) :
    aval m (coord (x ++ s)) k = aval m (coord x) k := by
  unfold aval
  refine Finset.sum_congr rfl fun c hc => ?_
  rw [coord_append x s c (by rw [Finset.mem_range] at hc; omega)]

/-- **C62** Let the rows `agg` have non-negative integer data, with some non-zero right-hand side and some non-zero
coefficient.  Then the aggregation succeeds; the new system has one equation in place of the rows `agg` and one more
variable (and its non-negativity constraint) for each inequality among them; and a non-negative integer point solves the
old system if and only if it can be extended to a solution of the new one, and then in exactly one way. -/
theorem c62_solutions_kept_partial (hrow : ∀ row ∈ m.rows, row.length = m.colsize)
    (hagg : ∀ i ∈ agg, 1 ≤ i ∧ i ≤ m.rows.length) (hadm : Admissible m agg)
    (hb : ∃ i row, i + 1 ∈ agg ∧ m.rows[i]? = some row ∧ row.getD 0 0 ≠ 0)
    (ha : ∃ i row, i + 1 ∈ agg ∧ m.rows[i]? = some row ∧ ∃ a ∈ row.tail, a ≠ 0) :
    ∃ N, kannan m agg = some N ∧ N.colsize = m.colsize + slacks m agg ∧
      N.rows.length + agg.card = m.rows.length + slacks m agg + 1 ∧
      ∀ x : List ℤ, x.length + 1 = m.colsize → (∀ z ∈ x, 0 ≤ z) →
        (IsSol m x → ∃! s : List ℤ, IsSol N (x ++ s)) ∧ ∀ s : List ℤ, IsSol N (x ++ s) → IsSol m x := by
  obtain ⟨sc, hsc⟩ := Option.isSome_iff_exists.1 ((scan_isSome m agg).2 hadm)
  have hinv := scan_inv m agg _ sc hsc
  obtain ⟨N, hN, h1, h2, -, h3⟩ := isSol_new m agg hagg sc hsc
  refine ⟨N, hN, h1, h2, ?_⟩
  intro x hx hx0
  set n := m.rows.length with hn
  have hcard := card_agg agg n hagg
  -- size of lambda
  have hbM : 1 ≤ sc.bMax := by
    obtain ⟨i, row, hi, hr, hne⟩ := hb
    have hlt := (List.getElem?_eq_some_iff.1 hr).1
    obtain ⟨⟨j1, j2, j3⟩, -⟩ := hinv.2.2.2 i hlt hi
    rw [entry_eq m row i hr] at j1 j3
    have : 0 < (row.getD 0 0).num := Rat.num_pos.2 (lt_of_le_of_ne j1 (Ne.symm hne))
    omega
  obtain ⟨haM, hcol, hk1⟩ : 1 ≤ sc.aMax ∧ 2 ≤ m.colsize ∧ 1 ≤ agg.card := by
    obtain ⟨i, row, hi, hr, a, haa, hne⟩ := ha
    have hlt := (List.getElem?_eq_some_iff.1 hr).1
    obtain ⟨-, j4⟩ := hinv.2.2.2 i hlt hi
    have hg : m.rows.getD i [] = row := by
      rw [List.getD_eq_getElem _ _ hlt]; exact (List.getElem?_eq_some_iff.1 hr).2
    rw [hg] at j4
    obtain ⟨k1, k2, k3⟩ := j4 a haa
    have : a.num < 0 := Rat.num_neg.2 (lt_of_le_of_ne k1 hne)
    refine ⟨by omega, ?_, Finset.card_pos.2 ⟨_, hi⟩⟩
    have hl := hrow row (List.mem_of_getElem? hr)
    have : 0 < row.tail.length := List.length_pos_of_mem haa
    rw [List.length_tail] at this
    omega
  have hlam : (agg.card : ℤ) * sc.bMax < lambdaOf m agg sc := by
    unfold lambdaOf
    have e1 : 1 ≤ (m.colsize : ℤ) - 1 := by omega
    have e2 : (1 : ℤ) ≤ ((m.colsize : ℤ) - 1) * sc.aMax := by nlinarith
    have e3 : (1 : ℤ) ≤ agg.card * sc.bMax := by
      have : (1 : ℤ) ≤ agg.card := by exact_mod_cast hk1
      nlinarith
    calc (agg.card : ℤ) * sc.bMax < 3 * (agg.card * sc.bMax) * 1 := by linarith
      _ ≤ 3 * (agg.card * sc.bMax) * (((m.colsize : ℤ) - 1) * sc.aMax) := mul_le_mul_of_nonneg_left e2 (by linarith)
      _ = 3 * (agg.card : ℤ) * ((m.colsize : ℤ) - 1) * sc.aMax * sc.bMax := by ring
  -- Kannan's argument
  have hkey : ∀ s : List ℤ, IsSol N (x ++ s) → s.length = slacks m agg ∧
      (∀ k, k < n → isCopy agg k → Cond m k (aval m (coord x) k)) ∧
      (∀ t, t < slacks m agg → 0 ≤ s.getD t 0) ∧
      ∀ k, k < n → isAgg agg k →
        zval m (coord x) k = if isSlack m agg k then s.getD (Nat.count (isSlack m agg) k) 0 else 0 := by
    intro s hs
    obtain ⟨g1, g2, g3, g4⟩ := (h3 (x ++ s)).1 hs
    have hlen : s.length = slacks m agg := by rw [List.length_append] at g1; omega
    have g3' : ∀ t, t < slacks m agg → 0 ≤ s.getD t 0 := by
      intro t ht
      have := g3 t ht
      rwa [← hx, coord_append_right] at this
    refine ⟨hlen, ?_, g3', ?_⟩
    · intro k hk hc
      have := g2 k hk hc
      rwa [aval_append m x s hx] at this
    · set y : ℕ → ℤ := fun k => zval m (coord x) k -
        if isSlack m agg k then s.getD (Nat.count (isSlack m agg) k) 0 else 0 with hy
      have hz := kannan_core ((Finset.range n).filter (isAgg agg)) (fun k => 1 + Nat.count (isAgg agg) k)
        (by
          intro a ha b hb hab
          rw [Finset.mem_coe, Finset.mem_filter] at ha hb
          exact count_inj' (isAgg agg) ha.2 hb.2 (by simpa using hab))
        agg.card
        (by
          intro k hk
          rw [Finset.mem_filter, Finset.mem_range] at hk
          have := count_lt (isAgg agg) hk.1 hk.2
          omega)
        (by rw [hcard, Nat.count_eq_card_filter_range])
        y sc.bMax (lambdaOf m agg sc) (by omega)
        (by
          intro k hk
          rw [Finset.mem_filter, Finset.mem_range] at hk
          have e1 := zval_le m agg sc n hinv (coord x) rfl (fun c _ => coord_nonneg x hx0 c) k hk.1 hk.2
          have e2 : 0 ≤ if isSlack m agg k then s.getD (Nat.count (isSlack m agg) k) 0 else 0 := by
            split
            · rename_i hs; exact g3' _ (count_lt _ hk.1 hs)
            · exact le_refl _
          simp only [hy]
          omega)
        hlam
        (by
          have : ((∑ k ∈ (Finset.range n).filter (isAgg agg),
              (lambdaOf m agg sc ^ (agg.card + 1) + lambdaOf m agg sc ^ (1 + Nat.count (isAgg agg) k)) * y k : ℤ) : ℚ)
              = 0 := by
            rw [← g4, Int.cast_sum]
            refine Finset.sum_congr rfl fun k hk => ?_
            rw [Finset.mem_filter, Finset.mem_range] at hk
            rw [aval_append m x s hx, aval_eq_zval m agg sc n hinv (coord x) k hk.1 hk.2, ← hx, coord_append_right]
            rw [Int.cast_mul]
            congr 1
            simp only [hy]
            push_cast
            congr 1
          exact_mod_cast this)
      intro k hk hg
      have := hz k (Finset.mem_filter.2 ⟨Finset.mem_range.2 hk, hg⟩)
      simp only [hy] at this
      omega
  constructor
  · intro hsol
    obtain ⟨-, hold⟩ := (isSol_old m hrow x).1 hsol
    -- the slack values
    set s : List ℤ := (List.range (slacks m agg)).map fun t =>
      ∑ k ∈ (Finset.range n).filter (fun k => isSlack m agg k ∧ Nat.count (isSlack m agg) k = t), zval m (coord x) k
      with hs
    have hsl : s.length = slacks m agg := by simp [hs]
    have hsv : ∀ k, k < n → isSlack m agg k → s.getD (Nat.count (isSlack m agg) k) 0 = zval m (coord x) k := by
      intro k hk hsk
      have hlt : Nat.count (isSlack m agg) k < slacks m agg := count_lt _ hk hsk
      rw [hs, List.getD_eq_getElem _ _ (by simpa using hlt)]
      simp only [List.getElem_map, List.getElem_range]
      rw [Finset.sum_eq_single k]
      · intro j hj hjk
        rw [Finset.mem_filter] at hj
        exact absurd (count_inj' _ hj.2.1 hsk hj.2.2) hjk
      · intro h
        exact absurd (Finset.mem_filter.2 ⟨Finset.mem_range.2 hk, hsk, rfl⟩) h
    refine ⟨s, ?_, ?_⟩
    · simp only
      rw [h3]
      refine ⟨by rw [List.length_append]; omega, ?_, ?_, ?_⟩
      · intro k hk _
        rw [aval_append m x s hx]
        exact hold k hk
      · intro t ht
        obtain ⟨k, hk, hsk, rfl⟩ := exists_count (isSlack m agg) n t ht
        rw [← hx, coord_append_right, hsv k hk hsk]
        have := hold k hk
        rw [Cond, if_neg hsk.2, aval_eq_zval m agg sc n hinv _ k hk hsk.1] at this
        exact_mod_cast this
      · refine Finset.sum_eq_zero fun k hk => ?_
        rw [Finset.mem_filter, Finset.mem_range] at hk
        rw [aval_append m x s hx, aval_eq_zval m agg sc n hinv _ k hk.1 hk.2, ← hx, coord_append_right]
        by_cases hsk : isSlack m agg k
        · rw [if_pos hsk, hsv k hk.1 hsk]; ring
        · rw [if_neg hsk]
          have hlin : k + 1 ∈ m.linset := by
            by_contra h; exact hsk ⟨hk.2, h⟩
          have := hold k hk.1
          rw [Cond, if_pos hlin, aval_eq_zval m agg sc n hinv _ k hk.1 hk.2] at this
          rw [this]; ring
    · intro s' hs'
      obtain ⟨e1, -, -, e4⟩ := hkey s' hs'
      apply List.ext_getElem (by omega)
      intro t ht1 ht2
      obtain ⟨k, hk, hsk, rfl⟩ := exists_count (isSlack m agg) n t (by rw [e1] at ht1; exact ht1)
      have hh := e4 k hk hsk.1
      rw [if_pos hsk] at hh
      have hh2 := hsv k hk hsk
      rw [List.getD_eq_getElem _ _ ht1] at hh
      rw [List.getD_eq_getElem _ _ ht2] at hh2
      rw [← hh, ← hh2]
  · intro s hs
    obtain ⟨-, e2, e3, e4⟩ := hkey s hs
    rw [isSol_old m hrow x]
    refine ⟨hx, ?_⟩
    intro k hk
    by_cases hg : isAgg agg k
    · have := e4 k hk hg
      rw [Cond, aval_eq_zval m agg sc n hinv _ k hk hg, this]
      by_cases hlin : k + 1 ∈ m.linset
      · rw [if_pos hlin, if_neg (by simp [isSlack, hlin])]; simp
      · have hsk : isSlack m agg k := ⟨hg, hlin⟩
        rw [if_neg hlin, if_pos hsk]
        exact_mod_cast e3 _ (count_lt _ hk hsk)
    · exact e2 k hk hg

/-! ### Degenerate data -/

theorem scan_bMax_zero (hb : ∀ i, i + 1 ∈ agg → entry m i 0 = 0) (t : ℕ) :
    ∀ sc, (List.range t).foldlM (scanRow m agg) ⟨0, 0, 0⟩ = some sc → sc.bMax = 0 := by
  induction t with
  | zero =>
    intro sc h
    change some _ = some _ at h
    simp only [Option.some.injEq] at h
    subst h; rfl
  | succ t ih =>
    intro sc h
    rw [List.range_succ, List.foldlM_append] at h
    change Option.bind _ _ = some _ at h
    rw [Option.bind_eq_some_iff] at h
    obtain ⟨sc0, h0, h1⟩ := h
    have hz := ih sc0 h0
    have h1 : scanRow m agg sc0 t = some sc := by simpa [List.foldlM] using h1
    unfold scanRow at h1
    by_cases hg : t + 1 ∈ agg
    · have hbt := hb t hg
      unfold entry at hbt
      rw [if_pos hg] at h1
      simp only [hbt] at h1
      split at h1
      · cases h1
      · split at h1
        · cases h1
        · rw [Option.map_eq_some_iff] at h1
          obtain ⟨a1, -, rfl⟩ := h1
          simp [hz]
    · rw [if_neg hg] at h1
      simp only [Option.some.injEq] at h1
      subst h1; exact hz

theorem scanA_zero (l : List ℚ) (hl : ∀ a ∈ l, a = 0) : ∀ a0 a1, 0 ≤ a0 → scanA a0 l = some a1 → a1 = a0 := by
  induction l with
  | nil => intro a0 a1 _ h; simp only [scanA, Option.some.injEq] at h; exact h.symm
  | cons a l ih =>
    intro a0 a1 h0 h
    have ha := hl a (List.mem_cons_self ..)
    subst ha
    rw [scanA] at h
    simp only [gt_iff_lt, lt_self_iff_false, if_false, Rat.den_ofNat, ne_eq, not_true_eq_false, Rat.num_ofNat,
      neg_zero] at h
    rw [if_neg (by omega)] at h
    exact ih (fun x hx => hl x (List.mem_cons_of_mem _ hx)) a0 a1 h0 h

theorem scan_aMax_zero (ha : ∀ i, i + 1 ∈ agg → ∀ a ∈ (m.rows.getD i []).tail, a = 0) (t : ℕ) :
    ∀ sc, (List.range t).foldlM (scanRow m agg) ⟨0, 0, 0⟩ = some sc → sc.aMax = 0 := by
  induction t with
  | zero =>
    intro sc h
    change some _ = some _ at h
    simp only [Option.some.injEq] at h
    subst h; rfl
  | succ t ih =>
    intro sc h
    rw [List.range_succ, List.foldlM_append] at h
    change Option.bind _ _ = some _ at h
    rw [Option.bind_eq_some_iff] at h
    obtain ⟨sc0, h0, h1⟩ := h
    have hz := ih sc0 h0
    have h1 : scanRow m agg sc0 t = some sc := by simpa [List.foldlM] using h1
    unfold scanRow at h1
    by_cases hg : t + 1 ∈ agg
    · rw [if_pos hg] at h1
      simp only at h1
      split at h1
      · cases h1
      · split at h1
        · cases h1
        · rw [Option.map_eq_some_iff] at h1
          obtain ⟨a1, h2, rfl⟩ := h1
          have := scanA_zero _ (ha t hg) _ _ (by omega) h2
          simp only
          omega
    · rw [if_neg hg] at h1
      simp only [Option.some.injEq] at h1
      subst h1; exact hz

/-- **C62, violated.** If all right-hand sides in the rows `agg` are zero (or all coefficients are), lambda is zero, the
new equation is `0 = 0`, and the rows `agg` are simply lost: the solutions of the new system are the solutions of the
other rows, with arbitrary non-negative values of the new variables. -/
theorem c62_degenerate_rows_lost (hagg : ∀ i ∈ agg, 1 ≤ i ∧ i ≤ m.rows.length) (N : QMatrix)
    (hN : kannan m agg = some N)
    (h0 : (∀ i, i + 1 ∈ agg → entry m i 0 = 0) ∨ (∀ i, i + 1 ∈ agg → ∀ a ∈ (m.rows.getD i []).tail, a = 0))
    (z : List ℤ) :
    IsSol N z ↔ z.length + 1 = m.colsize + slacks m agg ∧
      (∀ k, k < m.rows.length → k + 1 ∉ agg → Cond m k (aval m (coord z) k)) ∧
      ∀ t, t < slacks m agg → 0 ≤ coord z (m.colsize + t) := by
  have hs : ∃ sc, scan m agg = some sc := by
    unfold kannan at hN
    obtain ⟨sc, h, -⟩ := Option.map_eq_some_iff.1 hN
    exact ⟨sc, h⟩
  obtain ⟨sc, hsc⟩ := hs
  obtain ⟨N', hN', -, -, -, h⟩ := isSol_new m agg hagg sc hsc
  obtain rfl : N = N' := by rw [hN] at hN'; exact Option.some.inj hN'
  rw [h]
  have hl : lambdaOf m agg sc = 0 := by
    unfold lambdaOf
    rcases h0 with h0 | h0
    · rw [scan_bMax_zero m agg h0 _ sc hsc]; ring
    · rw [scan_aMax_zero m agg h0 _ sc hsc]; ring
  have hm : ∀ k, multOf m agg sc k = 0 := by
    intro k
    unfold multOf mult
    rw [hl, zero_pow (by omega), zero_pow (by omega)]; rfl
  simp only [hm, Int.cast_zero, zero_mul, Finset.sum_const_zero, and_true]

/-- **C62, violated.** The program `aggregate` reads its input with a zero column put in front, so that every right-hand
side is zero: whenever it does not reject its input, all the rows to be aggregated are lost. -/
theorem c62_tool_loses_rows (hagg : ∀ i ∈ agg, 1 ≤ i ∧ i ≤ m.rows.length) (N : QMatrix)
    (hN : aggregateTool m agg = some N) (z : List ℤ) :
    IsSol N z ↔ z.length + 1 = m.colsize + 1 + slacks (homogenized m) agg ∧
      (∀ k, k < m.rows.length → k + 1 ∉ agg → Cond (homogenized m) k (aval (homogenized m) (coord z) k)) ∧
      ∀ t, t < slacks (homogenized m) agg → 0 ≤ coord z (m.colsize + 1 + t) := by
  have hlen : (homogenized m).rows.length = m.rows.length := by simp [homogenized]
  have := c62_degenerate_rows_lost (homogenized m) agg (by rw [hlen]; exact hagg) N hN (Or.inl (by
    intro i hi
    have := hagg _ hi
    have hlt : i < m.rows.length := by omega
    unfold entry homogenized
    simp [hlt])) z
  rw [hlen] at this
  exact this

/-- **C62, violated.** Ordinary data (a positive right-hand side) is always rejected by the program. -/
theorem c62_tool_rejects (i : ℕ) (row : List ℚ) (hi : i + 1 ∈ agg) (hr : m.rows[i]? = some row)
    (hpos : 0 < row.getD 0 0) : aggregateTool m agg = none := by
  unfold aggregateTool kannan
  rw [Option.map_eq_none_iff, ← Option.not_isSome_iff_eq_none, scan_isSome]
  intro h
  have := (h i hi (0 :: row) (by simp [homogenized, hr])).2 (row.getD 0 0) (by
    cases row with
    | nil => simp at hpos
    | cons a l => simp)
  exact absurd hpos (not_lt.2 this.1)

/-! ### Examples -/

/-- `x₁ + 2x₂ = 4`, `3x₁ + x₂ ≤ 5`, `x₁ ≥ 0`, `x₂ ≥ 0` -/
def demo : QMatrix := ⟨3, [[4, -1, -2], [5, -3, -1], [0, 1, 0], [0, 0, 1]], {1}⟩

example : (∀ row ∈ demo.rows, row.length = demo.colsize) ∧ (∀ i ∈ ({1, 2} : Finset ℕ), 1 ≤ i ∧ i ≤ demo.rows.length) := by
  decide

example : Admissible demo {1, 2} := by
  rw [← scan_isSome]
  decide +kernel

example : (∃ i row, i + 1 ∈ ({1, 2} : Finset ℕ) ∧ demo.rows[i]? = some row ∧ row.getD 0 0 ≠ 0) ∧
    (∃ i row, i + 1 ∈ ({1, 2} : Finset ℕ) ∧ demo.rows[i]? = some row ∧ ∃ a ∈ row.tail, a ≠ 0) :=
  ⟨⟨0, [4, -1, -2], by decide, rfl, by decide⟩, ⟨0, [4, -1, -2], by decide, rfl, -1, by decide, by decide⟩⟩

/-- `x₁ + x₂ = 0`, `x ≥ 0` has one solution; after aggregation of the equation the point (1, 0) is one, too. -/
example : ∃ N, kannan ⟨3, [[0, -1, -1], [0, 1, 0], [0, 0, 1]], {1}⟩ {1} = some N ∧ N.rows =
    [[0, 1, 0], [0, 0, 1], [0, 0, 0]] := ⟨_, rfl, by decide +kernel⟩

end Verif.Aggregate
