import Verif.Files.Matrix

/-!
Properties C34 (non-negativity constraints) and C35 (matrix files).
-/

namespace Verif.Files

open Latte.Decimal Latte.Rational

/-! ### C35 -/

/-- all characters are white space -/
def AllSpace (ws : List Char) : Prop := ∀ c ∈ ws, isSpace c = true

theorem allSpace_cons {c : Char} {ws : List Char} (hc : isSpace c = true) (h : AllSpace ws) : AllSpace (c :: ws) := by
  intro x hx
  rcases List.mem_cons.1 hx with rfl | hx
  · exact hc
  · exact h x hx

theorem allSpace_append {a b : List Char} (ha : AllSpace a) (hb : AllSpace b) : AllSpace (a ++ b) := by
  intro x hx
  rcases List.mem_append.1 hx with hx | hx
  · exact ha x hx
  · exact hb x hx

theorem readEntries_write (l : List ℚ) (rest : List Char) : ∀ ws, AllSpace ws → ∃ ws', AllSpace ws' ∧
    readEntries l.length (ws ++ (l.flatMap (fun q => printQ q ++ [' ']) ++ rest)) =
      some (l.map fun q => (q.num, (q.den : ℤ)), ws' ++ rest) := by
  induction l with
  | nil => intro ws h; exact ⟨ws, h, by simp [readEntries]⟩
  | cons q l ih =>
    intro ws h
    obtain ⟨ws', h1, h2⟩ := ih [' '] (by intro c hc; simp at hc; subst hc; decide)
    refine ⟨ws', h1, ?_⟩
    have e : ws ++ ((q :: l).flatMap (fun q => printQ q ++ [' ']) ++ rest) =
        ws ++ (printQ q ++ ([' '] ++ (l.flatMap (fun q => printQ q ++ [' ']) ++ rest))) := by
      simp [List.flatMap_cons]
    rw [e, List.length_cons, readEntries, readMpq_print q ws _ h (by
      intro c hc
      simp at hc; subst hc; exact ⟨by decide, by decide⟩)]
    simp only [Option.bind_some, h2, Option.map_some, List.map_cons]

theorem readRows_write (pre : List RawQ) (n : ℕ) (rows : List (List ℚ)) (hr : ∀ r ∈ rows, r.length = n) (rest : List Char) :
    ∀ ws, AllSpace ws → ∃ ws', AllSpace ws' ∧
    readRows pre rows.length n (ws ++ (rows.flatMap writeRow ++ rest)) =
      some (rows.map fun r => pre ++ r.map fun q => (q.num, (q.den : ℤ)), ws' ++ rest) := by
  induction rows with
  | nil => intro ws h; exact ⟨ws, h, by simp [readRows]⟩
  | cons r rows ih =>
    intro ws h
    obtain ⟨ws1, h1, h2⟩ := readEntries_write r (['\n'] ++ (rows.flatMap writeRow ++ rest)) ws h
    obtain ⟨ws2, h3, h4⟩ := ih (fun x hx => hr x (List.mem_cons_of_mem _ hx)) (ws1 ++ ['\n'])
      (allSpace_append h1 (by intro c hc; simp at hc; subst hc; decide))
    refine ⟨ws2, h3, ?_⟩
    have e : ws ++ ((r :: rows).flatMap writeRow ++ rest) =
        ws ++ (r.flatMap (fun q => printQ q ++ [' ']) ++ (['\n'] ++ (rows.flatMap writeRow ++ rest))) := by
      simp [List.flatMap_cons, writeRow]
    rw [e, List.length_cons, readRows, ← hr r (List.mem_cons_self ..), h2]
    simp only [Option.bind_some]
    rw [hr r (List.mem_cons_self ..), ← List.append_assoc ws1, h4]
    simp

theorem readInts_write (l : List ℤ) (hl : ∀ z ∈ l, IsInt z) (rest : List Char) :
    ∀ ws, AllSpace ws → ∃ ws', AllSpace ws' ∧
    readInts l.length (ws ++ (l.flatMap (fun z => printInt z ++ [' ']) ++ rest)) = some (l, ws' ++ rest) := by
  induction l with
  | nil => intro ws h; exact ⟨ws, h, by simp [readInts]⟩
  | cons z l ih =>
    intro ws h
    obtain ⟨ws', h1, h2⟩ := ih (fun x hx => hl x (List.mem_cons_of_mem _ hx)) [' ']
      (by intro c hc; simp at hc; subst hc; decide)
    refine ⟨ws', h1, ?_⟩
    have e : ws ++ ((z :: l).flatMap (fun z => printInt z ++ [' ']) ++ rest) =
        ws ++ (printInt z ++ ([' '] ++ (l.flatMap (fun z => printInt z ++ [' ']) ++ rest))) := by
      simp [List.flatMap_cons]
    rw [e, List.length_cons, readInts, readInt_print z (hl z (List.mem_cons_self ..)) ws _ h (by
      intro c hc
      simp at hc; subst hc; decide)]
    simp only [Option.bind_some, h2, Option.map_some]

theorem skipSpace_append (ws rest : List Char) (h : AllSpace ws) (hr : ∀ c, rest.head? = some c → isSpace c = false) :
    skipSpace (ws ++ rest) = rest := (takeWhile_append_of_all ws rest h hr).2

theorem skipSpace_all (ws : List Char) (h : AllSpace ws) : skipSpace ws = [] := by
  have := skipSpace_append ws [] h (by simp)
  simpa using this

/-- the 1-based numbers in the linearity set, in increasing order -/
def linIndices (n : ℕ) (s : Finset ℕ) : List ℕ := ((List.range n).map fun i => i + 1).filter fun i => decide (i ∈ s)

theorem writeLin_eq (m : QMatrix) :
    writeLin m = ((linIndices m.rows.length m.linset).map fun i : ℕ => (i : ℤ)).flatMap fun z => printInt z ++ [' '] := by
  unfold writeLin linIndices
  generalize (List.range m.rows.length).map (fun i => i + 1) = l
  induction l with
  | nil => rfl
  | cons a l ih =>
    rw [List.flatMap_cons, ih]
    by_cases h : a ∈ m.linset <;> simp [h]

theorem mem_linIndices (n : ℕ) (s : Finset ℕ) (i : ℕ) : i ∈ linIndices n s ↔ 1 ≤ i ∧ i ≤ n ∧ i ∈ s := by
  simp only [linIndices, List.mem_filter, List.mem_map, List.mem_range, decide_eq_true_eq]
  constructor
  · rintro ⟨⟨k, hk, rfl⟩, h⟩; exact ⟨by omega, by omega, h⟩
  · rintro ⟨h1, h2, h3⟩; exact ⟨⟨i - 1, by omega, by omega⟩, h3⟩

theorem linIndices_card (n : ℕ) (s : Finset ℕ) (hs : ∀ i ∈ s, 1 ≤ i ∧ i ≤ n) : (linIndices n s).length = s.card := by
  have hnd : (linIndices n s).Nodup :=
    (List.nodup_range.map (fun a b h => by simpa using h)).filter _
  rw [← List.toFinset_card_of_nodup hnd]
  congr 1
  ext i
  rw [List.mem_toFinset, mem_linIndices]
  exact ⟨fun h => h.2.2, fun h => ⟨(hs i h).1, (hs i h).2, h⟩⟩

theorem foldl_setAddelem (n : ℕ) (l : List ℕ) (hl : ∀ i ∈ l, 1 ≤ i ∧ i ≤ n) (s : Finset ℕ) :
    (l.map fun i : ℕ => (i : ℤ)).foldl (setAddelem n) s = s ∪ l.toFinset := by
  induction l generalizing s with
  | nil => simp
  | cons a l ih =>
    have ha := hl a (List.mem_cons_self ..)
    rw [List.map_cons, List.foldl_cons, ih (fun i hi => hl i (List.mem_cons_of_mem _ hi))]
    have : setAddelem n s a = insert a s := by
      unfold setAddelem
      rw [if_pos ⟨by exact_mod_cast ha.1, by exact_mod_cast ha.2⟩]
      simp
    rw [this]
    ext x
    simp only [Finset.mem_union, Finset.mem_insert, List.mem_toFinset, List.mem_cons]
    tauto

theorem readKeyword_linearity (t : List Char) :
    readKeyword (kwLinearity ++ ' ' :: t) = (kwLinearity, ' ' :: t) := by
  simp [readKeyword, kwLinearity]

/-- the matrix that is read, from the matrix that was written -/
def QMatrix.asRead (m : QMatrix) (vrep hom : Bool) : LMatrix :=
  { rowsize := m.rows.length, colsize := if hom then m.colsize + 1 else m.colsize, generator := vrep,
    rows := m.rows.map fun r =>
      if hom then (0, 1) :: r.map fun q => (q.num, (q.den : ℤ)) else r.map fun q => (q.num, (q.den : ℤ)),
    linset := m.linset }

theorem isInt_nat (n : ℕ) (h : n < 2 ^ 31) : IsInt (n : ℤ) := by
  unfold IsInt; constructor <;> omega

/-- **C35** Every matrix of rationals (with at most `2^31 - 1` rows and columns) and every set of row numbers is read
back exactly: same size, same entries, same equations; with homogenization, with one more column of zeros in front. -/
theorem c35_write_read (m : QMatrix) (hc : ∀ r ∈ m.rows, r.length = m.colsize) (hl : ∀ i ∈ m.linset, 1 ≤ i ∧ i ≤ m.rows.length)
    (h1 : m.rows.length < 2 ^ 31) (h2 : m.colsize < 2 ^ 31) (vrep hom : Bool) :
    readLatteStyleMatrix (writeLatteStyleMatrix m) vrep hom false = .ok (m.asRead vrep hom) := by
  set tail : List Char := (if 0 < m.linset.card then
      kwLinearity ++ [' '] ++ printInt (m.linset.card : ℤ) ++ [' '] ++ writeLin m ++ ['\n'] else []) with htail
  have e : writeLatteStyleMatrix m = printInt (m.rows.length : ℤ) ++ ([' '] ++ (printInt (m.colsize : ℤ) ++
      (['\n'] ++ (m.rows.flatMap writeRow ++ tail)))) := by
    simp [writeLatteStyleMatrix, htail]
  unfold readLatteStyleMatrix
  have r1 := readInt_print (m.rows.length : ℤ) (isInt_nat _ h1) [] ([' '] ++ (printInt (m.colsize : ℤ) ++
      (['\n'] ++ (m.rows.flatMap writeRow ++ tail)))) (by simp) (by intro c hc; simp at hc; subst hc; decide)
  rw [List.nil_append] at r1
  have r2 := readInt_print (m.colsize : ℤ) (isInt_nat _ h2) [' '] (['\n'] ++ (m.rows.flatMap writeRow ++ tail))
    (by intro c hc; simp at hc; subst hc; decide) (by intro c hc; simp at hc; subst hc; decide)
  rw [e, r1]
  simp only [r2]
  rw [if_neg (by omega)]
  obtain ⟨ws, hws, r3⟩ := readRows_write (List.replicate (if hom then 1 else 0) ((0, 1) : RawQ)) m.colsize m.rows hc tail ['\n'] (by intro c hc; simp at hc; subst hc; decide)
  simp only [Bool.false_eq_true, if_false, Int.toNat_natCast]
  rw [r3]
  simp only
  by_cases hcard : 0 < m.linset.card
  · have ht : tail = kwLinearity ++ ' ' :: (printInt (m.linset.card : ℤ) ++ ([' '] ++ (writeLin m ++ ['\n']))) := by
      rw [htail, if_pos hcard]
      simp
    have hsk : skipSpace (ws ++ tail) = tail := by
      apply skipSpace_append _ _ hws
      intro c hc
      rw [ht, show kwLinearity = 'l' :: ['i', 'n', 'e', 'a', 'r', 'i', 't', 'y'] from rfl] at hc
      simp only [List.cons_append, List.head?_cons, Option.some.injEq] at hc
      subst hc; decide
    have hcard2 : m.linset.card ≤ m.rows.length := by
      have : m.linset ⊆ Finset.Icc 1 m.rows.length := fun i hi => Finset.mem_Icc.2 (hl i hi)
      simpa using Finset.card_le_card this
    have r4 := readInt_print (m.linset.card : ℤ) (isInt_nat _ (by omega)) [' '] ([' '] ++ (writeLin m ++ ['\n']))
      (by intro c hc; simp at hc; subst hc; decide) (by intro c hc; simp at hc; subst hc; decide)
    obtain ⟨ws', hws', r5⟩ := readInts_write ((linIndices m.rows.length m.linset).map fun i : ℕ => (i : ℤ)) (by
      intro z hz
      obtain ⟨i, hi, rfl⟩ := List.mem_map.1 hz
      rw [mem_linIndices] at hi
      exact isInt_nat _ (by omega)) ['\n'] [' '] (by intro c hc; simp at hc; subst hc; decide)
    rw [← writeLin_eq, List.length_map, linIndices_card _ _ hl] at r5
    have hne : ∃ c cs, tail = c :: cs := by
      rw [ht, show kwLinearity = 'l' :: ['i', 'n', 'e', 'a', 'r', 'i', 't', 'y'] from rfl]
      exact ⟨_, _, rfl⟩
    have hlen : 0 < (ws ++ tail).length := by
      obtain ⟨c, cs, h⟩ := hne
      rw [h]; simp
    obtain ⟨f, hf⟩ : ∃ f, (ws ++ tail).length = f + 1 := ⟨_, (Nat.succ_pred_eq_of_pos hlen).symm⟩
    have hk : keywords (if hom then 1 else 0) ((ws ++ tail).length + 1) tail
        { rowsize := m.rows.length, colsize := m.colsize + (if hom then 1 else 0), generator := vrep,
          rows := m.rows.map fun r => List.replicate (if hom then 1 else 0) ((0, 1) : RawQ) ++
            r.map fun q => (q.num, (q.den : ℤ)), linset := ∅ } =
        .ok (m.asRead vrep hom) := by
      obtain ⟨c, cs, h⟩ := hne
      rw [hf, keywords.eq_def, h]
      simp only
      rw [← h, ht, readKeyword_linearity]
      simp only [if_true]
      rw [show ' ' :: (printInt (m.linset.card : ℤ) ++ ([' '] ++ (writeLin m ++ ['\n']))) =
        [' '] ++ (printInt (m.linset.card : ℤ) ++ ([' '] ++ (writeLin m ++ ['\n']))) from rfl, r4]
      simp only [Int.toNat_natCast]
      rw [r5]
      simp only
      rw [skipSpace_all _ (allSpace_append hws' (by intro c hc; simp at hc; subst hc; decide))]
      rw [keywords.eq_def]
      simp only [ReadRes.ok.injEq, QMatrix.asRead, LMatrix.mk.injEq, true_and]
      rw [foldl_setAddelem _ _ (fun i hi => by rw [mem_linIndices] at hi; exact ⟨hi.1, hi.2.1⟩)]
      refine ⟨by cases hom <;> simp, by cases hom <;> simp, ?_⟩
      ext i
      rw [Finset.mem_union, List.mem_toFinset, mem_linIndices]
      constructor
      · rintro (h | h)
        · simp at h
        · exact h.2.2
      · exact fun h => Or.inr ⟨(hl i h).1, (hl i h).2, h⟩
    rw [hsk, hk]
  · have ht : tail = [] := by rw [htail, if_neg hcard]
    have hemp : m.linset = ∅ := by rw [← Finset.card_eq_zero]; omega
    rw [ht, List.append_nil, skipSpace_all ws hws, keywords.eq_def]
    cases hom <;> simp [QMatrix.asRead, hemp]

/-- a non-trivial matrix: the file is as documented, and the hypotheses hold -/
def demoMatrix : QMatrix := ⟨3, [[1, -1/2, 0], [0, 7, -3]], {2}⟩

example : (∀ r ∈ demoMatrix.rows, r.length = demoMatrix.colsize) ∧
    (∀ i ∈ demoMatrix.linset, 1 ≤ i ∧ i ≤ demoMatrix.rows.length) := by decide

example : readLatteStyleMatrix "2 3\n1 -1/2 0 \n0 7 -3 \nlinearity 1 2 \n".toList false false false =
    .ok ⟨2, 3, false, [[(1, 1), (-1, 2), (0, 1)], [(0, 1), (7, 1), (-3, 1)]], {2}⟩ := by decide +kernel

/-! ### C34 -/

/-- value of a fraction as read -/
def rawVal (x : RawQ) : ℚ := (x.1 : ℚ) / x.2

/-- left-hand side of the row `(b, a_1, …, a_d)` at `x`: `b + a·x` (columns as vectors) -/
def lhs (row : List RawQ) (pt : List ℚ) : ℚ := (List.zipWith (fun a x => rawVal a * x) row pt).sum

theorem lhs_set (n k : ℕ) (hk : k < n) : ∀ (pt : List ℚ), pt.length = n →
    lhs ((List.replicate n ((0, 1) : RawQ)).set k (1, 1)) pt = pt.getD k 0 := by
  induction n generalizing k with
  | zero => omega
  | succ n ih =>
    intro pt hpt
    cases pt with
    | nil => simp at hpt
    | cons x pt =>
      have hz : ∀ (m : ℕ) (l : List ℚ), lhs (List.replicate m ((0, 1) : RawQ)) l = 0 := by
        intro m
        induction m with
        | zero => intro l; simp [lhs]
        | succ m ihm =>
          intro l
          cases l with
          | nil => simp [lhs]
          | cons y l =>
            have := ihm l
            simp only [lhs, List.replicate_succ, List.zipWith_cons_cons, List.sum_cons] at this ⊢
            rw [this]; simp [rawVal]
      cases k with
      | zero =>
        simp only [List.replicate_succ, List.set_cons_zero, lhs, List.zipWith_cons_cons, List.sum_cons]
        have := hz n pt
        unfold lhs at this
        rw [this]; simp [rawVal]
      | succ k =>
        have := ih k (by omega) pt (by simpa using hpt)
        simp only [List.replicate_succ, List.set_cons_succ, lhs, List.zipWith_cons_cons, List.sum_cons] at this ⊢
        rw [this]; simp [rawVal]

theorem mapM_nonnegRow (col hom : ℕ) (ids : List ℤ) (h : ∀ z ∈ ids, 0 ≤ z + hom ∧ z + hom < col) :
    ids.mapM (nonnegRow col hom) =
      some (ids.map fun z : ℤ => (List.replicate col ((0, 1) : RawQ)).set (z + hom).toNat (1, 1)) := by
  induction ids with
  | nil => rfl
  | cons z ids ih =>
    rw [List.mapM_cons, ih (fun x hx => h x (List.mem_cons_of_mem _ hx))]
    simp [nonnegRow, h z (List.mem_cons_self ..)]

/-- **C34** (file without homogenization) For variables `1 ≤ i ≤ d` of a matrix with columns `b, a_1, …, a_d`,
the keyword `nonnegative` appends one row per listed variable, in order; the left-hand side of the row for `i` at the
point `(1, x)` is `x_i`; the other rows and the set of equations are unchanged and none of the new rows is an
equation. -/
theorem c34_nonnegative_rows_partial (m : LMatrix) (hlin : ∀ i ∈ m.linset, 1 ≤ i ∧ i ≤ m.rowsize) (ids : List ℤ)
    (hids : ∀ z ∈ ids, 1 ≤ z ∧ z ≤ (m.colsize : ℤ) - 1) :
    ∃ new, addNonnegativity m ids 0 =
        some { rowsize := m.rowsize + ids.length, colsize := m.colsize, generator := false, rows := m.rows ++ new,
               linset := m.linset } ∧
      new.length = ids.length ∧
      ∀ (j : ℕ) (x : List ℚ), j < ids.length → x.length + 1 = m.colsize →
        (new.getD j []).length = m.colsize ∧ lhs (new.getD j []) (1 :: x) = x.getD ((ids.getD j 0).toNat - 1) 0 := by
  refine ⟨ids.map fun z : ℤ => (List.replicate m.colsize ((0, 1) : RawQ)).set (z + (0 : ℕ)).toNat (1, 1), ?_, by simp, ?_⟩
  · unfold addNonnegativity
    rw [mapM_nonnegRow m.colsize 0 ids (fun z hz => by have := hids z hz; push_cast; omega)]
    simp only [Option.map_some, Option.some.injEq, LMatrix.mk.injEq, true_and]
    ext i
    rw [Finset.mem_filter]
    exact ⟨fun h => h.1, fun h => ⟨h, hlin i h⟩⟩
  · intro j x hj hx
    have hm : ids.getD j 0 ∈ ids := by
      rw [List.getD_eq_getElem?_getD, List.getElem?_eq_getElem hj]; exact List.getElem_mem _
    have hz := hids _ hm
    have e : (ids.map fun z : ℤ => (List.replicate m.colsize ((0, 1) : RawQ)).set (z + (0 : ℕ)).toNat (1, 1)).getD j [] =
        (List.replicate m.colsize ((0, 1) : RawQ)).set (ids.getD j 0 + (0 : ℕ)).toNat (1, 1) := by
      simp [List.getD_eq_getElem?_getD, hj]
    rw [e]
    refine ⟨by simp, ?_⟩
    rw [lhs_set m.colsize _ (by omega) (1 :: x) (by simpa using hx)]
    obtain ⟨k, hk⟩ : ∃ k, (ids.getD j 0 + ((0 : ℕ) : ℤ)).toNat = k + 1 :=
      ⟨(ids.getD j 0).toNat - 1, by omega⟩
    rw [hk, List.getD_cons_succ]
    congr 1
    omega

/-- **C34, violated.** With homogenization (a zero column in front, so variable `i` is column `i`) the row made for
variable `i` is about variable `i + 1`: at the point `(t, x)` its left-hand side is `x_{i+1}`. -/
theorem c34_homogenized_off_by_one (m : LMatrix) (i : ℕ) (hi : 1 ≤ i) (hi2 : i + 1 < m.colsize) (t : ℚ) (x : List ℚ)
    (hx : x.length + 1 = m.colsize) :
    ∃ row, nonnegRow m.colsize 1 i = some row ∧ lhs row (t :: x) = x.getD i 0 := by
  refine ⟨_, by unfold nonnegRow; rw [if_pos (by push_cast; omega)], ?_⟩
  rw [lhs_set m.colsize _ (by push_cast; omega) (t :: x) (by simpa using hx)]
  rw [show ((i : ℤ) + ((1 : ℕ) : ℤ)).toNat = i + 1 by omega, List.getD_cons_succ]

/-- **C34, violated.** With homogenization the row for the last variable is written behind the end of the row. -/
theorem c34_homogenized_last_out_of_bounds (m : LMatrix) :
    nonnegRow m.colsize 1 ((m.colsize : ℤ) - 1) = none := by
  unfold nonnegRow
  rw [if_neg]
  push_cast
  omega

theorem mapM_none {α β : Type} (f : α → Option β) (l : List α) (a : α) (ha : a ∈ l) (hf : f a = none) :
    l.mapM f = none := by
  induction l with
  | nil => cases ha
  | cons b l ih =>
    rw [List.mapM_cons]
    rcases List.mem_cons.1 ha with rfl | h
    · simp [hf]
    · cases f b with
      | none => simp
      | some y => simp [ih h]

/-- **C34, violated.** The option "all variables are non-negative" always writes out of bounds: whatever file is
accepted without the option, with the option the reader writes behind the end of a row, for every matrix with at
least one column, homogenized or not (the constant column is counted as a variable). -/
theorem c34_option_out_of_bounds (s : List Char) (vrep hom : Bool) (m : LMatrix)
    (h : readLatteStyleMatrix s vrep hom false = .ok m) (hcol : (if hom then 1 else 0) < m.colsize) :
    readLatteStyleMatrix s vrep hom true = .outOfBounds := by
  unfold readLatteStyleMatrix at h ⊢
  split at h
  · cases h
  · rename_i nv r h1
    split at h
    · cases h
    · rename_i nc r2 h2
      split at h
      · cases h
      · rename_i h3
        simp only [h3, if_false]
        dsimp only at h
        split at h
        · cases h
        · rename_i rows r3 h4
          have hkc : ∀ (k : ℕ) (fuel : ℕ) (s : List Char) (a b : LMatrix), keywords k fuel s a = .ok b →
              b.colsize = a.colsize := by
            intro k fuel
            induction fuel with
            | zero => intro s a b h; simp [keywords] at h
            | succ fuel ih =>
              intro s a b h
              rw [keywords.eq_def] at h
              simp only at h
              split at h
              · simp only [ReadRes.ok.injEq] at h; rw [h]
              · split at h
                · split at h
                  · cases h
                  · split at h
                    · cases h
                    · have := ih _ _ _ h
                      exact this
                · split at h
                  · split at h
                    · cases h
                    · split at h
                      · cases h
                      · split at h
                        · cases h
                        · split at h
                          · cases h
                          · rename_i m' hm'
                            rw [ih _ _ _ h]
                            unfold addNonnegativity at hm'
                            obtain ⟨new, -, rfl⟩ := Option.map_eq_some_iff.1 hm'
                            rfl
                  · cases h
          split at h
          · rename_i m1 hm1
            simp only [Bool.false_eq_true, if_false, ReadRes.ok.injEq] at h
            subst h
            simp only [if_true]
            have hc := hkc _ _ _ _ _ hm1
            simp only at hc
            have : addNonnegativity m1 ((List.range nc.toNat).map fun k : ℕ => (k : ℤ) + 1) (if hom then 1 else 0) = none := by
              unfold addNonnegativity
              rw [Option.map_eq_none_iff]
              apply mapM_none _ _ (nc : ℤ)
              · rw [List.mem_map]
                refine ⟨nc.toNat - 1, ?_, ?_⟩
                · rw [List.mem_range]; omega
                · omega
              · unfold nonnegRow
                rw [if_neg]
                rw [hc]
                push_cast
                omega
            simp only [this]
          · rename_i hne
            exact absurd h (hne m)

example : readLatteStyleMatrix "1 3\n4 -1 -1 \nnonnegative 2 1 2 \n".toList false false false =
    .ok ⟨3, 3, false, [[(4, 1), (-1, 1), (-1, 1)], [(0, 1), (1, 1), (0, 1)], [(0, 1), (0, 1), (1, 1)]], ∅⟩ := by
  decide +kernel
example : readLatteStyleMatrix "1 3\n4 -1 -1 \n".toList false false true = .outOfBounds := by decide +kernel

end Verif.Files
