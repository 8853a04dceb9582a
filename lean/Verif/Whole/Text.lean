import Verif.Whole.Spec
import Verif.Files.MatrixProps
import Verif.Empty.Props

/-!
# C91: both readers on the text of a file
-/

namespace Verif.Whole

open Verif.Files Latte.Decimal

variable {n : ℕ}

/-! ## Words -/

theorem splitWords_word (w : List Char) (hw : ∀ c ∈ w, isSpace c = false) (acc s : List Char) :
    splitWords acc (w ++ s) = splitWords (w.reverse ++ acc) s := by
  induction w generalizing acc with
  | nil => rfl
  | cons c w ih =>
    rw [List.cons_append, splitWords, hw c (by simp), if_neg (by simp), ih (fun x hx => hw x (by simp [hx]))]
    simp

theorem splitWords_blank (w : List Char) (hw : ∀ c ∈ w, isSpace c = false) (hne : w ≠ []) (b : Char) (hb : isSpace b = true) (s : List Char) :
    splitWords [] (w ++ b :: s) = w :: splitWords [] s := by
  rw [splitWords_word w hw, splitWords, hb, if_pos rfl, if_neg (by simpa using hne)]
  simp

theorem splitWords_space (b : Char) (hb : isSpace b = true) (s : List Char) : splitWords [] (b :: s) = splitWords [] s := by
  rw [splitWords, hb]
  rfl

/-- **Specification.** A text with given words: before each word white space (at least one character, except before the first one), after the last word white space or nothing. -/
def layout : List (List Char × List Char) → List Char → List Char
  | [], trail => trail
  | (blank, w) :: ps, trail => blank ++ w ++ layout ps trail

/-- **Words are found whatever the layout is**: any white space, any line breaks, also when the file ends without one. -/
theorem splitWords_layout (trail : List Char) (ht : ∀ c ∈ trail, isSpace c = true) : ∀ ps : List (List Char × List Char), (∀ p ∈ ps, ∀ c ∈ p.1, isSpace c = true) →
    (∀ p ∈ ps.tail, p.1 ≠ []) → (∀ p ∈ ps, p.2 ≠ [] ∧ ∀ c ∈ p.2, isSpace c = false) → splitWords [] (layout ps trail) = ps.map (·.2) := by
  have hskip : ∀ (b s : List Char), (∀ c ∈ b, isSpace c = true) → splitWords [] (b ++ s) = splitWords [] s := by
    intro b
    induction b with
    | nil => intro s _; rfl
    | cons c b ih =>
      intro s h
      rw [List.cons_append, splitWords_space c (h c (by simp)), ih s fun x hx => h x (by simp [hx])]
  intro ps
  induction ps with
  | nil =>
    intro _ _ _
    have := hskip trail [] ht
    rw [List.append_nil] at this
    rw [layout, this]
    rfl
  | cons p ps ih =>
    intro h1 h2 h3
    obtain ⟨blank, w⟩ := p
    obtain ⟨hw0, hw⟩ := h3 (blank, w) (by simp)
    have ih' := ih (fun q hq => h1 q (by simp [hq])) (fun q hq => h2 q (List.mem_of_mem_tail hq)) fun q hq => h3 q (by simp [hq])
    rw [layout, List.append_assoc, hskip blank _ (h1 (blank, w) (by simp)), List.map_cons]
    cases hrest : layout ps trail with
    | nil =>
      rw [splitWords_word w hw]
      have hps : ps = [] := by
        cases ps with
        | nil => rfl
        | cons q qs =>
          exfalso
          have := (h3 q (by simp)).1
          rw [layout] at hrest
          simp at hrest
          exact this hrest.2.1
      subst hps
      rw [splitWords, if_neg (by simpa using hw0)]
      simp
    | cons c s =>
      have hc : isSpace c = true := by
        cases ps with
        | nil =>
          rw [layout] at hrest
          exact ht c (by rw [hrest]; simp)
        | cons q qs =>
          obtain ⟨b, bs, hb⟩ := List.exists_cons_of_ne_nil (h2 q (by simp))
          rw [layout, hb] at hrest
          simp only [List.cons_append, List.cons.injEq] at hrest
          rw [← hrest.1]
          exact h1 q (by simp) b (by rw [hb]; simp)
      rw [splitWords_blank w hw hw0 c hc]
      congr 1
      rw [← ih', hrest, splitWords_space c hc]

example : splitWords [] "\t 2  3\n\n3 -2\r\n0".toList = ["2".toList, "3".toList, "3".toList, "-2".toList, "0".toList] := by decide +kernel

theorem printInt_noSpace (z : ℤ) : ∀ c ∈ printInt z, isSpace c = false := by
  intro c hc
  rcases printInt_chars z c hc with h | h
  · exact isDigit_not_space h
  · rw [h]; decide

theorem tokens_blank (b : Char) (hb : isSpace b = true) (s : List Char) : tokens (b :: s) = tokens s := by
  unfold tokens
  rw [splitWords_space b hb]

theorem tokens_numbers (l : List ℤ) (s : List Char) : tokens (numbers l ++ s) = l.map .num ++ tokens s := by
  induction l with
  | nil => rfl
  | cons z l ih =>
    have e : numbers (z :: l) ++ s = printInt z ++ ' ' :: (numbers l ++ s) := by simp [numbers]
    rw [e]
    unfold tokens
    rw [splitWords_blank _ (printInt_noSpace z) (printInt_ne_nil z) ' ' (by decide), List.map_cons, parseInt_printInt]
    show _ :: tokens (numbers l ++ s) = _
    rw [ih]
    rfl

theorem tokens_keyword (w : List Char) (hw : ∀ c ∈ w, isSpace c = false) (hne : w ≠ []) (hp : parseInt w = none) (s : List Char) :
    tokens (w ++ ' ' :: s) = .word (String.ofList w) :: tokens s := by
  unfold tokens
  rw [splitWords_blank w hw hne ' ' (by decide), List.map_cons, hp]

theorem tokens_section (w : List Char) (hw : ∀ c ∈ w, isSpace c = false) (hne : w ≠ []) (hp : parseInt w = none) (o : Option (List ℕ)) (s : List Char) :
    tokens (sectionText w o ++ s) = Empty.sectionToks (String.ofList w) o ++ tokens s := by
  cases o with
  | none => rfl
  | some l =>
    have e : sectionText w (some l) ++ s = w ++ ' ' :: (numbers ((l.length : ℤ) :: l.map fun e : ℕ => (e : ℤ)) ++ '\n' :: s) := by simp [sectionText]
    rw [e, tokens_keyword w hw hne hp, tokens_numbers, tokens_blank '\n' (by decide)]
    simp [Empty.sectionToks]

/-- The test for emptiness reads the file as it should be read. -/
theorem tokens_text (P : Empty.Problem n) (h : P.nonnegFirst = false) : tokens (text P) = P.file := by
  have hrows : ∀ (rows : List (ℤ × (Fin n → ℤ))) (s : List Char), tokens (rows.flatMap (fun r => numbers (r.1 :: List.ofFn r.2) ++ ['\n']) ++ s) =
      (rows.flatMap fun r => .num r.1 :: List.ofFn fun k => .num (r.2 k)) ++ tokens s := by
    intro rows s
    induction rows with
    | nil => rfl
    | cons r rows ih =>
      have e : (r :: rows).flatMap (fun r => numbers (r.1 :: List.ofFn r.2) ++ ['\n']) ++ s =
          numbers (r.1 :: List.ofFn r.2) ++ '\n' :: (rows.flatMap (fun r => numbers (r.1 :: List.ofFn r.2) ++ ['\n']) ++ s) := by simp
      rw [e, tokens_numbers, tokens_blank '\n' (by decide), ih]
      simp [List.map_ofFn, Function.comp_def]
  unfold text
  rw [List.append_assoc, List.append_assoc, List.append_assoc, tokens_numbers, List.singleton_append, tokens_blank '\n' (by decide), hrows,
    tokens_section kwLinearity (by decide) (by decide) (by decide)]
  rw [← List.append_nil (sectionText kwNonnegative P.nonnegative), tokens_section kwNonnegative (by decide) (by decide) (by decide)]
  unfold Empty.Problem.file
  rw [h]
  simp only [Bool.false_eq_true, if_false]
  rw [show tokens [] = [] from rfl, show String.ofList kwLinearity = "linearity" from by decide, show String.ofList kwNonnegative = "nonnegative" from by decide]
  simp

/-! ## The matrix -/

/-- The rows of a problem in the matrix. -/
def rawRow (r : ℤ × (Fin n → ℤ)) : List RawQ := (r.1, 1) :: List.ofFn fun k => (r.2 k, 1)

/-- The row of a nonnegative variable in the matrix. -/
def unitRow (n : ℕ) (j : ℕ) : List RawQ := (List.replicate (n + 1) ((0, 1) : RawQ)).set j (1, 1)

/-- The matrix of a problem. -/
def matrix (P : Empty.Problem n) : LMatrix where
  rowsize := P.rows.length + (P.nonnegative.getD []).length
  colsize := n + 1
  generator := false
  rows := P.rows.map rawRow ++ (P.nonnegative.getD []).map (unitRow n)
  linset := (P.linearity.getD []).toFinset

theorem numbers_writeRow (l : List ℤ) : numbers l ++ ['\n'] = writeRow (l.map fun z : ℤ => (z : ℚ)) := by
  unfold numbers writeRow
  rw [List.flatMap_map]
  congr 2
  funext z
  simp [Files.printQ]

theorem readSection (l : List ℕ) (hl : l.length < 2 ^ 31) (hll : ∀ e ∈ l, e < 2 ^ 31) (rest : List Char) : ∃ ws, AllSpace ws ∧ ∃ mid,
    readInt (' ' :: (numbers ((l.length : ℤ) :: l.map fun e : ℕ => (e : ℤ)) ++ rest)) = some ((l.length : ℤ), mid) ∧
    Files.readInts l.length mid = some (l.map fun e : ℕ => (e : ℤ), ws ++ rest) := by
  obtain ⟨ws, hws, h⟩ := readInts_write (l.map fun e : ℕ => (e : ℤ)) (by
    intro z hz
    obtain ⟨e, he, rfl⟩ := List.mem_map.1 hz
    exact isInt_nat _ (hll e he)) rest [' '] (by intro c hc; simp at hc; subst hc; decide)
  refine ⟨ws, hws, _, ?_, by rw [List.length_map] at h; exact h⟩
  have := readInt_print (l.length : ℤ) (isInt_nat _ hl) [' '] ([' '] ++ ((l.map fun e : ℕ => (e : ℤ)).flatMap (fun z => printInt z ++ [' ']) ++ rest))
    (by intro c hc; simp at hc; subst hc; decide) (by intro c hc; simp at hc; subst hc; decide)
  rw [← this]
  simp [numbers]

theorem readKeyword_nonnegative (t : List Char) : readKeyword (kwNonnegative ++ ' ' :: t) = (kwNonnegative, ' ' :: t) := by
  simp [readKeyword, kwNonnegative]

theorem keywords_nil (fuel : ℕ) (m : LMatrix) : keywords 0 (fuel + 1) [] m = .ok m := rfl

/-- White space after a section and before the next one. -/
theorem skip_section (ws : List Char) (hws : AllSpace ws) (w : List Char) (hw : ∀ c, w.head? = some c → isSpace c = false) : skipSpace (ws ++ w) = w :=
  skipSpace_append ws w hws hw

theorem keywords_linearity (fuel : ℕ) (l : List ℕ) (hl : l.length < 2 ^ 31) (hll : ∀ e ∈ l, 1 ≤ e ∧ e < 2 ^ 31) (rest : List Char)
    (hr : ∀ c, rest.head? = some c → isSpace c = false) (m : LMatrix) (hm : ∀ e ∈ l, e ≤ m.rowsize) :
    keywords 0 (fuel + 1) (sectionText kwLinearity (some l) ++ rest) m = keywords 0 fuel rest { m with linset := m.linset ∪ l.toFinset } := by
  have e : sectionText kwLinearity (some l) ++ rest = kwLinearity ++ ' ' :: (numbers ((l.length : ℤ) :: l.map fun e : ℕ => (e : ℤ)) ++ ('\n' :: rest)) := by simp [sectionText]
  obtain ⟨ws, hws, mid, h1, h2⟩ := readSection l hl (fun e he => (hll e he).2) ('\n' :: rest)
  have hsk : skipSpace (ws ++ '\n' :: rest) = rest := by
    have : ws ++ '\n' :: rest = (ws ++ ['\n']) ++ rest := by simp
    rw [this]
    exact skip_section _ (allSpace_append hws (by intro c hc; simp at hc; subst hc; decide)) _ hr
  have hk : keywords 0 (fuel + 1) (kwLinearity ++ ' ' :: (numbers ((l.length : ℤ) :: l.map fun e : ℕ => (e : ℤ)) ++ ('\n' :: rest))) m =
      match readInt (' ' :: (numbers ((l.length : ℤ) :: l.map fun e : ℕ => (e : ℤ)) ++ ('\n' :: rest))) with
        | none => .error
        | some (k, r) =>
          match Files.readInts k.toNat r with
          | none => .error
          | some (ids, r) => keywords 0 fuel (skipSpace r) { m with linset := ids.foldl (setAddelem m.rowsize) m.linset } := by
    have hr := readKeyword_linearity (numbers ((l.length : ℤ) :: l.map fun e : ℕ => (e : ℤ)) ++ ('\n' :: rest))
    conv_lhs => unfold keywords
    generalize ht : numbers ((l.length : ℤ) :: l.map fun e : ℕ => (e : ℤ)) ++ ('\n' :: rest) = t at hr ⊢
    show (if (readKeyword (kwLinearity ++ ' ' :: t)).1 = kwLinearity then _ else _) = _
    rw [hr]
    simp only [if_true]
    rfl
  rw [e, hk, h1]
  simp only [Int.toNat_natCast, h2]
  rw [hsk, foldl_setAddelem _ _ fun e he => ⟨(hll e he).1, hm e he⟩]

theorem keywords_nonnegative (fuel : ℕ) (l : List ℕ) (hl : l.length < 2 ^ 31) (hll : ∀ e ∈ l, e < 2 ^ 31) (rest : List Char)
    (hr : ∀ c, rest.head? = some c → isSpace c = false) (m : LMatrix) (hg : m.generator = false) (hc : m.colsize = n + 1) (hm : ∀ e ∈ l, e ≤ n)
    (hlin : ∀ i ∈ m.linset, 1 ≤ i ∧ i ≤ m.rowsize) :
    keywords 0 (fuel + 1) (sectionText kwNonnegative (some l) ++ rest) m =
      keywords 0 fuel rest { m with rowsize := m.rowsize + l.length, rows := m.rows ++ l.map (unitRow n) } := by
  have e : sectionText kwNonnegative (some l) ++ rest = kwNonnegative ++ ' ' :: (numbers ((l.length : ℤ) :: l.map fun e : ℕ => (e : ℤ)) ++ ('\n' :: rest)) := by simp [sectionText]
  obtain ⟨ws, hws, mid, h1, h2⟩ := readSection l hl hll ('\n' :: rest)
  have hsk : skipSpace (ws ++ '\n' :: rest) = rest := by
    have : ws ++ '\n' :: rest = (ws ++ ['\n']) ++ rest := by simp
    rw [this]
    exact skip_section _ (allSpace_append hws (by intro c hc; simp at hc; subst hc; decide)) _ hr
  have hk : keywords 0 (fuel + 1) (kwNonnegative ++ ' ' :: (numbers ((l.length : ℤ) :: l.map fun e : ℕ => (e : ℤ)) ++ ('\n' :: rest))) m =
      match readInt (' ' :: (numbers ((l.length : ℤ) :: l.map fun e : ℕ => (e : ℤ)) ++ ('\n' :: rest))) with
        | none => .error
        | some (k, r) =>
          match Files.readInts k.toNat r with
          | none => .error
          | some (ids, r) =>
              match addNonnegativity m ids 0 with
              | none => .outOfBounds
              | some m' => keywords 0 fuel (skipSpace r) m' := by
    have hr := readKeyword_nonnegative (numbers ((l.length : ℤ) :: l.map fun e : ℕ => (e : ℤ)) ++ ('\n' :: rest))
    conv_lhs => unfold keywords
    generalize ht : numbers ((l.length : ℤ) :: l.map fun e : ℕ => (e : ℤ)) ++ ('\n' :: rest) = t at hr ⊢
    show (if (readKeyword (kwNonnegative ++ ' ' :: t)).1 = kwLinearity then _ else if (readKeyword (kwNonnegative ++ ' ' :: t)).1 = kwNonnegative then _ else _) = _
    rw [hr, if_neg (show ¬ kwNonnegative = kwLinearity by decide), if_pos rfl, hg]
    rfl
  have hadd : addNonnegativity m (l.map fun e : ℕ => (e : ℤ)) 0 = some { m with rowsize := m.rowsize + l.length, rows := m.rows ++ l.map (unitRow n) } := by
    unfold addNonnegativity
    rw [mapM_nonnegRow _ _ _ (by
      intro z hz
      obtain ⟨e, he, rfl⟩ := List.mem_map.1 hz
      have := hm e he
      push_cast
      omega)]
    simp only [Option.map_some, Option.some.injEq]
    obtain ⟨a, b, c, d, f⟩ := m
    simp only [LMatrix.mk.injEq, List.length_map, true_and, List.append_cancel_left_eq, List.map_map] at hg hc hlin ⊢
    refine ⟨hg.symm, ?_, ?_⟩
    · refine List.map_congr_left fun e he => ?_
      simp only [Function.comp_apply]
      unfold unitRow
      rw [hc]
      congr 1
    · ext i
      rw [Finset.mem_filter]
      exact ⟨fun h => h.1, fun h => ⟨h, hlin i h⟩⟩
  rw [e, hk, h1]
  simp only [Int.toNat_natCast, h2, hadd]
  rw [hsk]

theorem head_section (w : List Char) (c0 : Char) (w0 : List Char) (hw : w = c0 :: w0) (hc : isSpace c0 = false) (o : Option (List ℕ)) (rest : List Char)
    (hr : ∀ c, rest.head? = some c → isSpace c = false) : ∀ c, (sectionText w o ++ rest).head? = some c → isSpace c = false := by
  cases o with
  | none => exact hr
  | some l =>
    intro c h
    rw [hw] at h
    simp only [sectionText, List.cons_append, List.head?_cons, Option.some.injEq] at h
    rw [← h]
    exact hc

/-- The reader of matrices reads the file as it should be read. -/
theorem read_text (P : Empty.Problem n) (h : P.Ok) (h1 : P.rows.length < 2 ^ 31) (h2 : n + 1 < 2 ^ 31) (h3 : (P.nonnegative.getD []).length < 2 ^ 31) :
    readLatteStyleMatrix (text P) false false false = .ok (matrix P) := by
  set sec2 := sectionText kwNonnegative P.nonnegative with hsec2
  set sec := sectionText kwLinearity P.linearity ++ sec2 with hsec
  have hd2 : ∀ c, sec2.head? = some c → isSpace c = false := by
    have := head_section kwNonnegative 'n' _ rfl (by decide) P.nonnegative [] (by simp)
    rw [List.append_nil] at this
    exact this
  have hd : ∀ c, sec.head? = some c → isSpace c = false := head_section kwLinearity 'l' _ rfl (by decide) P.linearity sec2 hd2
  set qrows : List (List ℚ) := P.rows.map fun r => ((r.1 :: List.ofFn r.2).map fun z : ℤ => (z : ℚ)) with hq
  have e : text P = printInt (P.rows.length : ℤ) ++ ([' '] ++ (printInt ((n + 1 : ℕ) : ℤ) ++ ([' ', '\n'] ++ (qrows.flatMap writeRow ++ sec)))) := by
    have : P.rows.flatMap (fun r => numbers (r.1 :: List.ofFn r.2) ++ ['\n']) = qrows.flatMap writeRow := by
      rw [hq, List.flatMap_map]
      congr 1
      funext r
      rw [numbers_writeRow]
    unfold text
    rw [this, hsec]
    simp [numbers]
    exact hsec2.symm
  have r1 := readInt_print (P.rows.length : ℤ) (isInt_nat _ h1) [] ([' '] ++ (printInt ((n + 1 : ℕ) : ℤ) ++ ([' ', '\n'] ++ (qrows.flatMap writeRow ++ sec))))
    (by simp) (by intro c hc; simp at hc; subst hc; decide)
  rw [List.nil_append] at r1
  have r2 := readInt_print ((n + 1 : ℕ) : ℤ) (isInt_nat _ h2) [' '] ([' ', '\n'] ++ (qrows.flatMap writeRow ++ sec))
    (by intro c hc; simp at hc; subst hc; decide) (by intro c hc; simp at hc; subst hc; decide)
  obtain ⟨ws, hws, r3⟩ := readRows_write [] (n + 1) qrows (by
    intro r hr
    obtain ⟨q, hq, rfl⟩ := List.mem_map.1 hr
    simp) sec [' ', '\n'] (by intro c hc; simp at hc; rcases hc with rfl | rfl <;> decide)
  have hlen : qrows.length = P.rows.length := by simp [hq]
  rw [hlen] at r3
  have hraw : (qrows.map fun r => ([] : List RawQ) ++ r.map fun q => (q.num, (q.den : ℤ))) = P.rows.map rawRow := by
    rw [hq, List.map_map]
    refine List.map_congr_left fun r _ => ?_
    simp [rawRow, List.map_ofFn, Function.comp_def]
  unfold readLatteStyleMatrix
  rw [e, r1]
  simp only [r2]
  rw [if_neg (by push_cast; omega)]
  simp only [Bool.false_eq_true, if_false, Int.toNat_natCast, List.replicate_zero, Nat.add_zero]
  rw [r3]
  simp only [hraw, skip_section ws hws sec hd]
  -- the sections
  have hfuel : ∃ f, (ws ++ sec).length + 1 = f + 1 ∧ (P.linearity.isSome → ∃ g, f = g + 1 ∧ (P.nonnegative.isSome → ∃ g', g = g' + 1)) ∧
      (P.nonnegative.isSome → ∃ g, f = g + 1) := by
    refine ⟨_, rfl, fun hs => ?_, fun hs => ?_⟩
    · have hl : 2 ≤ (sectionText kwLinearity P.linearity).length := by
        obtain ⟨l, hl⟩ := Option.isSome_iff_exists.1 hs
        rw [hl]
        simp [sectionText, kwLinearity]
      have : 2 ≤ (ws ++ sec).length := by
        rw [hsec]
        simp only [List.length_append]
        omega
      exact ⟨(ws ++ sec).length - 1, by omega, fun _ => ⟨(ws ++ sec).length - 2, by omega⟩⟩
    · have hl : 2 ≤ sec2.length := by
        obtain ⟨l, hl⟩ := Option.isSome_iff_exists.1 hs
        rw [hsec2, hl]
        simp [sectionText, kwNonnegative]
      have : 2 ≤ (ws ++ sec).length := by
        rw [hsec]
        simp only [List.length_append]
        omega
      exact ⟨(ws ++ sec).length - 1, by omega⟩
  obtain ⟨f, hf, hf1, hf2⟩ := hfuel
  rw [hf]
  have hlen2 : ∀ l, P.linearity = some l → l.length < 2 ^ 31 := fun l hl => by
    have := h.few
    rw [hl] at this
    exact lt_of_le_of_lt this h1
  have main : keywords 0 (f + 1) sec { rowsize := P.rows.length, colsize := n + 1, generator := false, rows := P.rows.map rawRow, linset := ∅ } = .ok (matrix P) := by
    have step2 : ∀ (g : ℕ) (m : LMatrix), (P.nonnegative.isSome → ∃ g', g = g' + 1) → m.generator = false → m.colsize = n + 1 →
        (∀ i ∈ m.linset, 1 ≤ i ∧ i ≤ m.rowsize) →
        keywords 0 (g + 1) sec2 m = .ok { m with rowsize := m.rowsize + (P.nonnegative.getD []).length, rows := m.rows ++ (P.nonnegative.getD []).map (unitRow n) } := by
      intro g m hg hgen hcol hlin
      rw [hsec2]
      cases hn : P.nonnegative with
      | none => simp [sectionText, keywords_nil]
      | some l =>
        obtain ⟨g', rfl⟩ := hg (by rw [hn]; rfl)
        have hb : ∀ e ∈ l, e ≤ n := fun e he => (h.nonneg e (by rw [hn]; exact he)).2
        rw [hn] at h3
        have := keywords_nonnegative (n := n) (g' + 1) l h3 (fun e he => by have := hb e he; omega) [] (by simp) m hgen hcol hb hlin
        rw [List.append_nil] at this
        rw [this, keywords_nil]
        rfl
    rw [hsec]
    cases hl : P.linearity with
    | none =>
      have := step2 f { rowsize := P.rows.length, colsize := n + 1, generator := false, rows := P.rows.map rawRow, linset := ∅ } hf2 rfl rfl (by simp)
      show keywords 0 (f + 1) sec2 _ = _
      rw [this]
      simp [matrix, hl]
    | some l =>
      obtain ⟨g, rfl, hg'⟩ := hf1 (by rw [hl]; rfl)
      have hb : ∀ e ∈ l, 1 ≤ e ∧ e ≤ P.rows.length := fun e he => h.lin e (by rw [hl]; exact he)
      rw [keywords_linearity (g + 1) l (hlen2 l hl) (fun e he => ⟨(hb e he).1, by have := (hb e he).2; omega⟩) sec2 hd2 _ (fun e he => (hb e he).2)]
      rw [step2 g _ hg' rfl rfl (by
        intro i hi
        simp only [Finset.empty_union, List.mem_toFinset] at hi
        exact hb i hi)]
      simp [matrix, hl]
  rw [main]

end Verif.Whole
