import Verif.Empty.Spec
import Mathlib.Tactic.Ring
import Mathlib.Tactic.Linarith
import Mathlib.Algebra.BigOperators.Ring.Finset
import Mathlib.Algebra.Order.BigOperators.Group.Finset

/-!
# C86: the test for emptiness
-/

namespace Verif.Empty

variable {n : ℕ}

/-! ### Reading -/

theorem readNums_map (l : List ℤ) (ts : List Tok) : readNums l.length (l.map Tok.num ++ ts) = some (l, ts) := by
  induction l with
  | nil => rfl
  | cons z l ih =>
    show (readNums l.length (l.map Tok.num ++ ts)).map _ = _
    rw [ih]; rfl

theorem scan_nums (l : List ℤ) (f : ℕ) (ts : List Tok) (s : Scan) : scan (f + l.length) (l.map Tok.num ++ ts) s = scan f ts s := by
  induction l with
  | nil => rfl
  | cons z l ih =>
    show scan ((f + l.length) + 1) (Tok.num z :: (l.map Tok.num ++ ts)) s = _
    rw [scan, if_neg (by simp), if_neg (by simp)]
    exact ih

theorem scan_end (f : ℕ) (s : Scan) : scan (f + 1) [] s = some s := rfl

/-- the numbers of a section -/
def ints (l : List ℕ) : List ℤ := l.map fun e : ℕ => (e : ℤ)

theorem section_some (name : String) (l : List ℕ) : sectionToks name (some l) = .word name :: .num l.length :: (ints l).map Tok.num := by
  unfold sectionToks ints
  rw [List.map_map]; rfl

theorem readSection_ints (l : List ℕ) (ts : List Tok) : readSection (.num l.length :: ((ints l).map Tok.num ++ ts)) = some (ints l, ts) := by
  show (if (0 : ℤ) ≤ (l.length : ℤ) then readNums ((l.length : ℤ)).toNat ((ints l).map Tok.num ++ ts) else none) = _
  rw [if_pos (by omega)]
  have : ((l.length : ℤ)).toNat = (ints l).length := by unfold ints; simp
  rw [this, readNums_map]

theorem scan_linearity (f : ℕ) (l : Option (List ℕ)) (ts : List Tok) (s : Scan) :
    scan (f + 1) (sectionToks "linearity" l ++ ts) s =
      match l with
      | none => scan (f + 1) ts s
      | some l => scan f ts { s with equ := some (ints l), flag := 1 } := by
  cases l with
  | none => rfl
  | some l =>
    rw [section_some, List.cons_append, scan, if_pos rfl, List.cons_append, readSection_ints]
    rfl

theorem scan_nonnegative (f : ℕ) (l : Option (List ℕ)) (ts : List Tok) (s : Scan) :
    scan (f + 1) (sectionToks "nonnegative" l ++ ts) s =
      match l with
      | none => scan (f + 1) ts s
      | some l => scan f ts { s with nonneg := some (ints l), flag := 2 } := by
  cases l with
  | none => rfl
  | some l =>
    rw [section_some, List.cons_append, scan, if_neg (by simp), if_pos (Or.inr rfl), List.cons_append, readSection_ints]
    rfl

/-- a row as it is in the file -/
def rowList (r : ℤ × (Fin n → ℤ)) : List ℤ := r.1 :: List.ofFn r.2

theorem rowList_length (r : ℤ × (Fin n → ℤ)) : (rowList r).length = n + 1 := by simp [rowList]

/-- the sections of the file -/
def Problem.sections (P : Problem n) : List Tok :=
  if P.nonnegFirst then sectionToks "nonnegative" P.nonnegative ++ sectionToks "linearity" P.linearity
  else sectionToks "linearity" P.linearity ++ sectionToks "nonnegative" P.nonnegative

/-- the numbers before the sections -/
def Problem.head (P : Problem n) : List ℤ := P.rows.flatMap rowList

theorem file_eq (P : Problem n) : P.file = .num P.rows.length :: .num (n + 1) :: (P.head.map Tok.num ++ P.sections) := by
  have h : (P.rows.flatMap fun r => (Tok.num r.1 :: List.ofFn fun k => Tok.num (r.2 k))) = P.head.map Tok.num := by
    unfold Problem.head
    rw [List.map_flatMap]
    congr 1
    funext r
    unfold rowList
    rw [List.map_cons, List.map_ofFn]
    rfl
  unfold Problem.file
  rw [h]
  rfl

theorem readRows_rows (rows : List (ℤ × (Fin n → ℤ))) (ts : List Tok) :
    readRows rows.length (n + 1) ((rows.flatMap rowList).map Tok.num ++ ts) = some (rows.map rowList, ts) := by
  induction rows with
  | nil => rfl
  | cons r rows ih =>
    rw [List.flatMap_cons, List.map_append, List.append_assoc]
    show (readNums (n + 1) _).bind _ = _
    have := readNums_map (rowList r) ((rows.flatMap rowList).map Tok.num ++ ts)
    rw [rowList_length] at this
    rw [this, Option.bind_some]
    show (readRows rows.length (n + 1) _).map _ = _
    rw [ih]
    rfl

/-- what the first pass finds -/
def Problem.scan (P : Problem n) : Scan where
  equ := P.linearity.map ints
  nonneg := P.nonnegative.map ints
  flag := match P.linearity, P.nonnegative with
    | none, none => 0
    | some _, none => 1
    | none, some _ => 2
    | some _, some _ => if P.nonnegFirst then 1 else 2

theorem scan_sections (P : Problem n) (f : ℕ) : scan (f + 3) P.sections {} = some P.scan := by
  unfold Problem.sections Problem.scan
  cases hf : P.nonnegFirst
  · rw [if_neg (by simp)]
    rw [scan_linearity (f + 2)]
    cases P.linearity with
    | none =>
      show scan (f + 2 + 1) _ _ = _
      rw [← List.append_nil (sectionToks _ _), scan_nonnegative (f + 2)]
      cases P.nonnegative <;> rfl
    | some l =>
      show scan (f + 1 + 1) _ _ = _
      rw [← List.append_nil (sectionToks _ _), scan_nonnegative (f + 1)]
      cases P.nonnegative <;> rfl
  · rw [if_pos rfl]
    rw [scan_nonnegative (f + 2)]
    cases P.nonnegative with
    | none =>
      show scan (f + 2 + 1) _ _ = _
      rw [← List.append_nil (sectionToks _ _), scan_linearity (f + 2)]
      cases P.linearity <;> rfl
    | some l =>
      show scan (f + 1 + 1) _ _ = _
      rw [← List.append_nil (sectionToks _ _), scan_linearity (f + 1)]
      cases P.linearity <;> rfl

theorem scan_file (P : Problem n) : scan (P.file.length + 3) P.file {} = some P.scan := by
  have h := scan_nums ((P.rows.length : ℤ) :: ((n : ℤ) + 1) :: P.head) (P.sections.length + 3) P.sections {}
  rw [scan_sections] at h
  rw [← h, file_eq]
  congr 1
  simp only [List.length_cons, List.length_append, List.length_map]
  omega

/-! ### The file for cdd -/

theorem ints_getD (l : Option (List ℕ)) : (l.map ints).getD [] = ints (l.getD []) := by cases l <;> rfl

theorem mem_ints (l : List ℕ) (z : ℤ) : z ∈ ints l ↔ ∃ e ∈ l, (e : ℤ) = z := List.mem_map

/-- the file written for a problem -/
def Problem.lp (P : Problem n) : LpFile := lpFile P.scan P.rows.length (n + 1) (P.rows.map rowList)

/-- **How a call ends**, in terms of the file for cdd. -/
theorem checkEmpty_eq (cdd : LpFile → Option (List String)) (P : Problem n) (h : P.Ok) (h0 : P.rows ≠ [] ∨ n = 0) :
    checkEmpty cdd P.file = some (match cdd P.lp with
      | none => .exit1
      | some words => if "primal_solution" ∈ words ∨ "primal_direction" ∈ words then .done else .thrown "0\n") := by
  unfold checkEmpty
  rw [scan_file, Option.bind_some, file_eq]
  show (if (P.rows.length : ℤ) < 0 ∨ (n : ℤ) + 1 < 1 then none else _) = _
  rw [if_neg (by omega)]
  have e1 : ((P.rows.length : ℤ)).toNat = P.rows.length := by omega
  have e2 : ((n : ℤ) + 1).toNat = n + 1 := by omega
  rw [e1, e2, Problem.head, readRows_rows, Option.map_some]
  congr 1
  dsimp only
  rw [if_neg]
  · rfl
  · show ¬ (((P.linearity.map ints).getD []).length > _ ∨ (∃ e ∈ (P.linearity.map ints).getD [], _) ∨ (∃ j ∈ (P.nonnegative.map ints).getD [], _) ∨ _)
    rw [ints_getD, ints_getD]
    rintro (h1 | ⟨e, he, h1⟩ | ⟨e, he, h1⟩ | ⟨h1, h2⟩)
    · unfold ints at h1; rw [List.length_map] at h1; have := h.few; omega
    · obtain ⟨m, hm, rfl⟩ := (mem_ints _ _).1 he
      have := h.lin m hm; omega
    · obtain ⟨m, hm, rfl⟩ := (mem_ints _ _).1 he
      have := h.nonneg m hm; omega
    · rcases h0 with h0 | h0
      · exact h0 (List.length_eq_zero_iff.1 (by omega))
      · omega

theorem rowValue_rowList (r : ℤ × (Fin n → ℤ)) (t : ℝ) (x : Fin n → ℝ) : rowValue (rowList r) t x = t * (r.1 : ℝ) + ∑ k, (r.2 k : ℝ) * x k := by
  unfold rowValue rowList
  simp only [List.headD_cons, List.getD_cons_succ]
  congr 1
  refine Finset.sum_congr rfl fun k _ => ?_
  congr 2
  rw [List.getD_eq_getElem?_getD, List.getElem?_ofFn, dif_pos k.2]
  rfl

theorem rowValue_neg (row : List ℤ) (t : ℝ) (x : Fin n → ℝ) : rowValue (row.map fun z => -z) t x = -rowValue row t x := by
  unfold rowValue
  rw [neg_add, ← Finset.sum_neg_distrib]
  congr 1
  · cases row with
    | nil => simp
    | cons a row => simp
  · refine Finset.sum_congr rfl fun k _ => ?_
    rw [List.getD_eq_getElem?_getD, List.getD_eq_getElem?_getD, List.getElem?_map]
    cases row[(k : ℕ) + 1]? <;> simp

/-- the row for a nonnegative variable -/
theorem rowValue_nonneg (index : List ℤ) (i : Fin n) (t : ℝ) (x : Fin n → ℝ) :
    rowValue (0 :: (List.range n).map fun j : ℕ => if (i : ℕ) = j ∧ (((i : ℕ) : ℤ) + 1) ∈ index then 1 else 0) t x =
      if (((i : ℕ) : ℤ) + 1) ∈ index then x i else 0 := by
  unfold rowValue
  simp only [List.headD_cons, Int.cast_zero, mul_zero, zero_add, List.getD_cons_succ]
  have h : ∀ k : Fin n, ((((List.range n).map fun j : ℕ => if (i : ℕ) = j ∧ (((i : ℕ) : ℤ) + 1) ∈ index then (1 : ℤ) else 0).getD (k : ℕ) 0 : ℤ) : ℝ) * x k =
      if i = k then (if (((i : ℕ) : ℤ) + 1) ∈ index then x i else 0) else 0 := by
    intro k
    rw [List.getD_eq_getElem?_getD, List.getElem?_map, List.getElem?_range k.2]
    simp only [Option.map_some, Option.getD_some]
    by_cases hk : i = k
    · subst hk
      by_cases hi : (((i : ℕ) : ℤ) + 1) ∈ index <;> simp [hi]
    · have : ¬ ((i : ℕ) = k) := fun h => hk (Fin.ext h)
      simp [hk, this]
  rw [Finset.sum_congr rfl fun k _ => h k, Finset.sum_ite_eq]
  simp

/-- Meeting all rows of the file, homogeneous or not, is meeting all conditions of the problem. -/
theorem lp_rows (P : Problem n) (h : P.Ok) (t : ℝ) (x : Fin n → ℝ) :
    (∀ row ∈ P.lp.rows, 0 ≤ rowValue row t x) ↔ (∀ r ∈ P.rows, 0 ≤ t * (r.1 : ℝ) + ∑ k, (r.2 k : ℝ) * x k) ∧
      (∀ e ∈ P.linearity.getD [], ∀ r, P.rows[e - 1]? = some r → t * (r.1 : ℝ) + ∑ k, (r.2 k : ℝ) * x k = 0) ∧
      ∀ k : Fin n, (k : ℕ) + 1 ∈ P.nonnegative.getD [] → 0 ≤ x k := by
  have hrows : P.lp.rows = P.rows.map rowList ++ equRows (P.rows.map rowList) (ints (P.linearity.getD [])) ++
      (match P.nonnegative.map ints with | none => [] | some index => nonnegRows (n + 1) index) := by
    show _ ++ equRows _ ((P.linearity.map ints).getD []) ++ _ = _
    rw [ints_getD]; rfl
  rw [hrows]
  have hA : (∀ row ∈ P.rows.map rowList, 0 ≤ rowValue row t x) ↔ ∀ r ∈ P.rows, 0 ≤ t * (r.1 : ℝ) + ∑ k, (r.2 k : ℝ) * x k := by
    rw [List.forall_mem_map]
    simp only [rowValue_rowList]
  have hB : (∀ row ∈ equRows (P.rows.map rowList) (ints (P.linearity.getD [])), 0 ≤ rowValue row t x) ↔
      ∀ e ∈ P.linearity.getD [], ∀ r, P.rows[e - 1]? = some r → t * (r.1 : ℝ) + ∑ k, (r.2 k : ℝ) * x k ≤ 0 := by
    unfold equRows ints
    rw [List.map_map, List.forall_mem_map]
    refine forall_congr' fun e => ?_
    refine ⟨fun H he r hr => ?_, fun H he => ?_⟩
    · have := H he
      have e1 : ((e : ℤ) - 1).toNat = e - 1 := by omega
      simp only [Function.comp_apply] at this
      rw [e1, List.getElem?_map, hr] at this
      simp only [Option.map_some, Option.getD_some] at this
      rw [rowValue_neg, rowValue_rowList] at this
      linarith
    · have e1 : ((e : ℤ) - 1).toNat = e - 1 := by omega
      simp only [Function.comp_apply]
      have hb := h.lin e he
      have hlt : e - 1 < P.rows.length := by omega
      have hr : P.rows[e - 1]? = some P.rows[e - 1] := List.getElem?_eq_getElem hlt
      rw [e1, List.getElem?_map, hr]
      simp only [Option.map_some, Option.getD_some]
      rw [rowValue_neg, rowValue_rowList]
      have := H he _ hr
      linarith
  have hC : (∀ row ∈ (match P.nonnegative.map ints with | none => [] | some index => nonnegRows (n + 1) index), 0 ≤ rowValue row t x) ↔
      ∀ k : Fin n, (k : ℕ) + 1 ∈ P.nonnegative.getD [] → 0 ≤ x k := by
    cases P.nonnegative with
    | none => simp
    | some l =>
      simp only [Option.map_some, Option.getD_some]
      unfold nonnegRows
      rw [List.forall_mem_map]
      have hm : ∀ k : ℕ, ((k : ℤ) + 1) ∈ ints l ↔ k + 1 ∈ l := by
        intro k
        rw [mem_ints]
        constructor
        · rintro ⟨e, he, h⟩
          have : e = k + 1 := by omega
          exact this ▸ he
        · intro h
          exact ⟨_, h, by push_cast; ring⟩
      constructor
      · intro H k hk
        have := H k (by rw [List.mem_range]; exact k.2)
        have e := rowValue_nonneg (ints l) k t x
        rw [if_pos ((hm k).2 hk)] at e
        rw [← e]; exact this
      · intro H i hi
        have hi' : i < n := by rw [List.mem_range] at hi; exact hi
        have e := rowValue_nonneg (ints l) ⟨i, hi'⟩ t x
        show 0 ≤ rowValue (0 :: (List.range n).map _) t x
        rw [e]
        split_ifs with hh
        · exact H ⟨i, hi'⟩ ((hm i).1 hh)
        · exact le_rfl
  constructor
  · intro H
    have H1 := hA.1 fun row hr => H row (List.mem_append_left _ (List.mem_append_left _ hr))
    have H2 := hB.1 fun row hr => H row (List.mem_append_left _ (List.mem_append_right _ hr))
    refine ⟨H1, fun e he r hr => le_antisymm (H2 e he r hr) (H1 r (List.mem_of_getElem? hr)), hC.1 fun row hr => H row (List.mem_append_right _ hr)⟩
  · rintro ⟨H1, H2, H3⟩ row hr
    rcases List.mem_append.1 hr with hr | hr
    · rcases List.mem_append.1 hr with hr | hr
      · exact hA.2 H1 row hr
      · exact hB.2 (fun e he r hr => (H2 e he r hr).le) row hr
    · exact hC.2 H3 row hr

theorem lp_solutions (P : Problem n) (h : P.Ok) : P.lp.Solutions n = P.Solutions := by
  ext x
  have := lp_rows P h 1 x
  simp only [one_mul] at this
  exact this

theorem lp_directions (P : Problem n) (h : P.Ok) : P.lp.Directions n = P.Directions := by
  ext x
  have := lp_rows P h 0 x
  simp only [zero_mul, zero_add] at this
  exact this

/-- The number of rows, and the number written before them. -/
theorem lp_numRows (P : Problem n) : P.lp.rows.length = P.rows.length + (P.linearity.getD []).length + (if P.nonnegative.isSome then n else 0) ∧
    P.lp.numRows = P.rows.length + (P.linearity.getD []).length + (if P.nonnegative.isSome ∧ ¬ (P.linearity.isSome ∧ P.nonnegFirst) then n else 0) := by
  constructor
  · show (_ ++ equRows _ ((P.linearity.map ints).getD []) ++ _ : List (List ℤ)).length = _
    rw [ints_getD]
    unfold equRows ints
    simp only [List.length_append, List.length_map]
    congr 1
    show (match P.nonnegative.map _ with | none => [] | some index => nonnegRows (n + 1) index).length = _
    cases P.nonnegative with
    | none => rfl
    | some l => simp [nonnegRows]
  · show P.rows.length + (if P.scan.flag = 2 then n + 1 - 1 else 0) + ((P.linearity.map ints).getD []).length = _
    rw [ints_getD]
    unfold ints Problem.scan
    simp only [List.length_map, Nat.add_sub_cancel]
    cases P.linearity <;> cases P.nonnegative <;> cases P.nonnegFirst <;> simp <;> omega

theorem lp_widths (P : Problem n) (h : P.Ok) (h0 : P.rows ≠ [] ∨ n = 0) : P.lp.numCols = n + 1 ∧ (∀ row ∈ P.lp.rows, row.length = n + 1) ∧
    P.lp.objective.length = n + 1 := by
  refine ⟨rfl, fun row hr => ?_, ?_⟩
  · rcases List.mem_append.1 hr with hr | hr
    · rcases List.mem_append.1 hr with hr | hr
      · obtain ⟨r, -, rfl⟩ := List.mem_map.1 hr
        exact rowList_length r
      · have hr' : row ∈ equRows (P.rows.map rowList) ((P.linearity.map ints).getD []) := hr
        rw [ints_getD] at hr'
        unfold equRows ints at hr'
        rw [List.map_map] at hr'
        obtain ⟨e, he, rfl⟩ := List.mem_map.1 hr'
        have e1 : ((e : ℤ) - 1).toNat = e - 1 := by omega
        have hb := h.lin e he
        have hlt : e - 1 < P.rows.length := by omega
        simp only [Function.comp_apply]
        rw [e1, List.getElem?_map, List.getElem?_eq_getElem hlt]
        simp [rowList]
    · have hr' : row ∈ (match P.nonnegative.map ints with | none => [] | some index => nonnegRows (n + 1) index) := hr
      revert hr'
      cases P.nonnegative with
      | none => intro h; cases h
      | some l =>
        intro hr'
        obtain ⟨i, -, rfl⟩ := List.mem_map.1 hr'
        simp
  · show (0 :: ((P.rows.map rowList).headD []).tail).length = _
    rcases h0 with h0 | rfl
    · cases hP : P.rows with
      | nil => exact absurd hP h0
      | cons r rs => simp [rowList]
    · cases hP : P.rows with
      | nil => rfl
      | cons r rs => simp [rowList]

/-- the objective is the first row -/
theorem lp_objective (P : Problem n) (x : Fin n → ℝ) (hx : x ∈ P.Directions) (h1 : P.Directions = {0}) : rowValue P.lp.objective 0 x ≤ 0 := by
  rw [h1] at hx
  have : x = 0 := hx
  subst this
  unfold rowValue
  simp

/-! ### C86 -/

/-- **C86.** For every problem whose nonnegativity section, if there is one, is not followed by a linearity section: if the problem has a solution, the call returns;
if it has none, and no direction except zero meets the homogeneous conditions (as for every polytope given by inequalities), then zero is written to the file with the number of lattice
points and an exception is thrown. -/
theorem c86_decides (cdd : LpFile → Option (List String)) (hc : CddOk cdd) (P : Problem n) (h : P.Ok) (h0 : P.rows ≠ [] ∨ n = 0)
    (horder : ¬ (P.linearity.isSome ∧ P.nonnegative.isSome ∧ P.nonnegFirst)) :
    (P.Solutions.Nonempty → checkEmpty cdd P.file = some .done) ∧
    (P.Solutions = ∅ → P.Directions = {0} → checkEmpty cdd P.file = some (.thrown "0\n")) := by
  have hcount : P.lp.numRows = P.lp.rows.length := by
    rw [(lp_numRows P).1, (lp_numRows P).2]
    congr 1
    by_cases hn : P.nonnegative.isSome = true
    · rw [if_pos hn, if_pos ⟨hn, fun hh => horder ⟨hh.1, hn, hh.2⟩⟩]
    · rw [if_neg hn, if_neg fun hh => hn hh.1]
  obtain ⟨w1, w2, w3⟩ := lp_widths P h h0
  obtain ⟨words, hw, hfeas, hinf⟩ := hc.result P.lp n hcount w1 w2 w3
  rw [lp_solutions P h] at hfeas hinf
  rw [lp_directions P h] at hinf
  rw [checkEmpty_eq cdd P h h0, hw]
  dsimp only
  constructor
  · intro hne
    rw [if_pos (hfeas hne)]
  · intro hne hd
    obtain ⟨h1, h2⟩ := hinf hne fun x hx => lp_objective P x hx hd
    rw [if_neg (by tauto)]

/-- **C86: an exception is never thrown for a problem with a solution,** whatever the order of the sections. -/
theorem c86_never_rejects_feasible (cdd : LpFile → Option (List String)) (hc : CddOk cdd) (P : Problem n) (h : P.Ok) (h0 : P.rows ≠ [] ∨ n = 0)
    (hne : P.Solutions.Nonempty) (text : String) : checkEmpty cdd P.file ≠ some (.thrown text) := by
  by_cases hcount : P.lp.numRows = P.lp.rows.length
  · obtain ⟨w1, w2, w3⟩ := lp_widths P h h0
    obtain ⟨words, hw, hfeas, -⟩ := hc.result P.lp n hcount w1 w2 w3
    rw [lp_solutions P h] at hfeas
    rw [checkEmpty_eq cdd P h h0, hw]
    dsimp only
    rw [if_pos (hfeas hne)]
    simp
  · rw [checkEmpty_eq cdd P h h0, hc.malformed P.lp hcount]
    simp

/-- **C86 is violated if the nonnegativity section comes first:** then the number of rows written is too small, and the program ends with `exit(1)`, for every problem
in dimension at least one with both sections. -/
theorem c86_nonnegative_first_exits (cdd : LpFile → Option (List String)) (hc : CddOk cdd) (P : Problem n) (h : P.Ok) (h0 : P.rows ≠ []) (hn : 0 < n)
    (h1 : P.linearity.isSome) (h2 : P.nonnegative.isSome) (h3 : P.nonnegFirst) : checkEmpty cdd P.file = some .exit1 := by
  have hcount : P.lp.numRows ≠ P.lp.rows.length := by
    rw [(lp_numRows P).1, (lp_numRows P).2, if_neg fun hh => hh.2 ⟨h1, h3⟩, if_pos h2]
    omega
  rw [checkEmpty_eq cdd P h (Or.inl h0), hc.malformed P.lp hcount]

/-- **C86: outside of arrays.** Without rows the first row is read all the same; with more equations than rows (an index given twice) the array of indices is too small; and an
index that is not the number of a row is used as it is. -/
theorem c86_undefined (cdd : LpFile → Option (List String)) (P : Problem n)
    (h : (P.rows = [] ∧ 0 < n) ∨ P.rows.length < (P.linearity.getD []).length ∨ (∃ e ∈ P.linearity.getD [], e = 0 ∨ P.rows.length < e) ∨
      ∃ j ∈ P.nonnegative.getD [], j = 0 ∨ n + 1 < j) : checkEmpty cdd P.file = some .undefined := by
  unfold checkEmpty
  rw [scan_file, Option.bind_some, file_eq]
  show (if (P.rows.length : ℤ) < 0 ∨ (n : ℤ) + 1 < 1 then none else _) = _
  rw [if_neg (by omega)]
  have e1 : ((P.rows.length : ℤ)).toNat = P.rows.length := by omega
  have e2 : ((n : ℤ) + 1).toNat = n + 1 := by omega
  rw [e1, e2, Problem.head, readRows_rows, Option.map_some]
  congr 1
  dsimp only
  rw [if_pos]
  show ((P.linearity.map ints).getD []).length > _ ∨ (∃ e ∈ (P.linearity.map ints).getD [], _) ∨ (∃ j ∈ (P.nonnegative.map ints).getD [], _) ∨ _
  rw [ints_getD, ints_getD]
  rcases h with ⟨h, hn⟩ | h | ⟨e, he, h⟩ | ⟨e, he, h⟩
  · right; right; right
    rw [h]
    exact ⟨rfl, by omega⟩
  · left; unfold ints; rw [List.length_map]; exact h
  · right; left
    exact ⟨e, (mem_ints _ _).2 ⟨e, he, rfl⟩, by omega⟩
  · right; right; left
    exact ⟨e, (mem_ints _ _).2 ⟨e, he, rfl⟩, by omega⟩

end Verif.Empty
