import Mathlib.Tactic.Ring
import Verif.Rational.Props
import Verif.Trie.TextModel
import Verif.Trie.Props

/-!
# C25, C47: reading back printed polynomials and sums of powers of linear forms
-/

namespace Verif.Trie.Text

open Latte.Decimal

theorem scanTo_append (stop : Char → Bool) (tok : List Char) (c : Char) (rest : List Char)
    (h : ∀ x ∈ tok, stop x = false) (hc : stop c = true) :
    scanTo stop (tok ++ c :: rest) = some (tok, c :: rest) := by
  induction tok with
  | nil => simp [scanTo, hc]
  | cons x xs ih =>
    rw [List.cons_append, scanTo, h x (by simp), ih fun y hy => h y (by simp [hy])]
    rfl

theorem printInt_no (z : ℤ) (c : Char) (hc : isDigit c = false) (hm : c ≠ '-') :
    c ∉ printInt z := by
  intro h
  rcases printInt_chars z c h with h | h
  · rw [h] at hc; cases hc
  · exact hm h

theorem printRat_no (q : ℚ) (c : Char) (hc : isDigit c = false) (hm : c ≠ '-') (hs : c ≠ '/') :
    c ∉ printRat q := by
  unfold printRat Latte.Rational.print
  simp only [List.mem_append]
  rintro (h | h)
  · exact printInt_no _ c hc hm h
  · split at h
    · simp only [List.mem_cons] at h
      rcases h with h | h
      · exact hs h
      · exact printInt_no _ c hc hm h
    · simp at h

theorem parseRat_printRat (q : ℚ) : parseRat (printRat q) = some q := by
  unfold parseRat printRat
  rw [Latte.Rational.c03_print_ofString]
  · simp [Rat.num_div_den]
  · refine ⟨Int.natCast_pos.mpr q.pos, ?_⟩
    exact q.reduced

theorem takeWhile_all {p : Char → Bool} (l : List Char) (h : ∀ x ∈ l, p x = true) :
    l.takeWhile p = l := by
  induction l with
  | nil => rfl
  | cons x xs ih =>
    rw [List.takeWhile_cons_of_pos (h x (by simp)), ih fun y hy => h y (by simp [hy])]

theorem atoi_printInt (z : ℤ) : atoi (printInt z) = z := by
  unfold printInt
  split
  · rename_i h
    have : ('-' :: printNat z.natAbs).dropWhile isSpace = '-' :: printNat z.natAbs := by
      rw [List.dropWhile_cons_of_neg (by decide)]
    unfold atoi
    rw [this]
    simp only
    rw [takeWhile_all _ (printNat_digits _), natOfDigits_printNat]
    omega
  · rename_i h
    have hd := printNat_digits z.natAbs
    have hne := printNat_ne_nil z.natAbs
    rcases hp : printNat z.natAbs with _ | ⟨c, cs⟩
    · exact absurd hp hne
    · have hc : isDigit c = true := hd c (by rw [hp]; simp)
      have h1 : (c :: cs).dropWhile isSpace = c :: cs :=
        List.dropWhile_cons_of_neg (by simp [isDigit_not_space hc])
      unfold atoi
      rw [h1]
      have n1 : c ≠ '-' := isDigit_ne hc _ (by decide)
      have n2 : c ≠ '+' := isDigit_ne hc _ (by decide)
      split
      · rename_i heq; exact absurd (List.cons.inj heq).1 n1
      · rename_i heq; exact absurd (List.cons.inj heq).1 n2
      · rw [takeWhile_all _ (by rw [← hp]; exact hd), ← hp, natOfDigits_printNat]
        omega

theorem printVec_no (zs : List ℤ) (c : Char) (hc : isDigit c = false) (hm : c ≠ '-') (h1 : c ≠ ',')
    (h2 : c ≠ ' ') : c ∉ printVec zs := by
  induction zs with
  | nil => simp [printVec]
  | cons z zs ih =>
    cases zs with
    | nil => exact printInt_no z c hc hm
    | cons w zs =>
      simp only [printVec, List.mem_append, List.mem_cons, not_or]
      exact ⟨printInt_no z c hc hm, h1, h2, ih⟩

theorem printVec_commas (zs : List ℤ) : (printVec zs).count ',' = zs.length - 1 := by
  induction zs with
  | nil => rfl
  | cons z zs ih =>
    have h0 : (printInt z).count ',' = 0 :=
      List.count_eq_zero.mpr (printInt_no z ',' (by decide) (by decide))
    cases zs with
    | nil => simpa [printVec] using h0
    | cons w zs =>
      simp only [printVec, List.count_append, List.count_cons, h0, ih]
      simp

/-- The array loop on a printed list. -/
theorem parseVec_print (conv : List Char → Option ℤ) (hconv : ∀ z, conv (printInt z) = some z)
    (zs : List ℤ) : ∀ (f k : ℕ) (arr : List ℤ) (rest : List Char), zs ≠ [] →
    k + zs.length = arr.length → (printVec zs).length + 2 ≤ f →
    parseVec conv f k arr (printVec zs ++ ']' :: ']' :: rest) =
      some (arr.take k ++ zs, ']' :: rest) := by
  induction zs with
  | nil => intro f k arr rest h; exact absurd rfl h
  | cons z zs ih =>
    intro f k arr rest _ hk hf
    obtain ⟨c, cs, hz, hc, _⟩ := printInt_cons z
    have hstop : ∀ x ∈ printInt z, (x == ',' || x == ']') = false := by
      intro x hx
      have a : x ≠ ',' := by
        rintro rfl; exact printInt_no z ',' (by decide) (by decide) hx
      have b : x ≠ ']' := by
        rintro rfl; exact printInt_no z ']' (by decide) (by decide) hx
      simp [a, b]
    have hc1 : c ≠ ']' := by
      rintro rfl; exact printInt_no z ']' (by decide) (by decide) (by rw [hz]; simp)
    have hc2 : c ≠ ' ' := by
      rintro rfl; exact printInt_no z ' ' (by decide) (by decide) (by rw [hz]; simp)
    have hkl : k < arr.length := by simp at hk; omega
    cases zs with
    | nil =>
      simp only [printVec] at hf ⊢
      obtain ⟨g, rfl⟩ : ∃ g, f = g + 1 := ⟨f - 1, by omega⟩
      obtain ⟨g, rfl⟩ : ∃ g', g = g' + 1 := ⟨g - 1, by omega⟩
      have hsc := scanTo_append (fun x => x == ',' || x == ']') (printInt z) ']' (']' :: rest) hstop
        (by decide)
      rw [hz, List.cons_append, parseVec, if_neg hc1, if_neg hc2]
      rw [hz, List.cons_append] at hsc
      rw [hsc]
      simp only [if_pos hkl, List.tail_cons]
      rw [← hz, hconv, Option.bind_some, parseVec, if_pos rfl]
      simp only [List.length_singleton] at hk
      congr 2
      rw [List.set_eq_take_append_cons_drop, if_pos hkl, List.drop_of_length_le (by omega)]
    | cons w zs =>
      simp only [printVec, List.length_append, List.length_cons, List.append_assoc,
        List.cons_append] at hf ⊢
      obtain ⟨g, rfl⟩ : ∃ g, f = g + 1 := ⟨f - 1, by omega⟩
      obtain ⟨g, rfl⟩ : ∃ g', g = g' + 1 := ⟨g - 1, by omega⟩
      have hsc := scanTo_append (fun x => x == ',' || x == ']') (printInt z) ','
        (' ' :: (printVec (w :: zs) ++ ']' :: ']' :: rest)) hstop (by decide)
      have hl : 1 ≤ (printInt z).length := by rw [hz]; simp
      rw [hz, List.cons_append, parseVec, if_neg hc1, if_neg hc2]
      rw [hz, List.cons_append] at hsc
      rw [hsc]
      simp only [if_pos hkl, List.tail_cons]
      rw [← hz, hconv, Option.bind_some, parseVec, if_neg (by decide), if_pos rfl]
      rw [ih g (k + 1) (arr.set k z) rest (by simp) (by simp at hk ⊢; omega) (by omega)]
      congr 2
      rw [List.set_eq_take_append_cons_drop, if_pos hkl]
      rw [List.take_append]
      simp [Nat.min_eq_left hkl.le]

theorem count_take_bracket (pre : List Char) (h : ']' ∉ pre) (rest : List Char) :
    commas (pre ++ ']' :: rest) = some (pre.count ',') := by
  unfold commas
  rw [scanTo_append _ pre ']' rest _ (by decide)]
  · rfl
  · intro x hx
    have : x ≠ ']' := by rintro rfl; exact h hx
    simpa using this

/-- The main loop on the text of a term followed by at least one character. -/
theorem monoLoop_term (t : Term ℚ) (f : ℕ) (arr : List ℤ) (c : Char) (rest : List Char)
    (ht : t.exps ≠ []) (ha : arr.length = t.exps.length)
    (hf : (printMono t ++ c :: rest).length + 1 ≤ f) :
    ∃ g, (c :: rest).length + 1 ≤ g ∧
      monoLoop f none arr (printMono t ++ c :: rest) =
        (monoLoop g none t.exps (c :: rest)).map ((t.coef, t.exps) :: ·) := by
  unfold printMono at hf ⊢
  simp only [List.length_cons, List.length_append, List.cons_append, List.append_assoc,
    List.nil_append] at hf ⊢
  obtain ⟨g, rfl⟩ : ∃ g, f = g + 3 := ⟨f - 3, by omega⟩
  refine ⟨g, by omega, ?_⟩
  rw [monoLoop, if_neg (by simp)]
  simp only [if_pos]
  rw [scanTo_append _ _ _ _ _ (by decide)]
  · simp only [List.tail_cons]
    rw [parseRat_printRat, Option.bind_some, monoLoop, if_neg (by simp)]
    simp only [Char.reduceEq, if_false]
    rw [monoLoop, if_neg (by simp)]
    simp only [if_true]
    rw [parseVec_print (fun s => some (atoi s)) (fun z => by rw [atoi_printInt]) t.exps g 0 arr _ ht
      (by omega) (by omega)]
    simp
  · intro x hx
    have : x ≠ ',' := by
      rintro rfl; exact printRat_no t.coef ',' (by decide) (by decide) (by decide) hx
    simpa using this

theorem monoLoop_skip (f : ℕ) (arr : List ℤ) (c : Char) (rest : List Char) (hc : c ≠ '[')
    (hr : rest ≠ []) : monoLoop (f + 1) none arr (c :: rest) = monoLoop f none arr rest := by
  rw [monoLoop, if_neg]
  · simp only [if_neg hc]
  · have := List.length_pos_iff.mpr hr
    simp only [List.length_cons]; omega

theorem monoLoop_join (n : ℕ) (hn : 0 < n) (ts : List (Term ℚ)) :
    ∀ (t : Term ℚ) (f : ℕ) (arr : List ℤ), (∀ u ∈ t :: ts, u.exps.length = n) → arr.length = n →
    (joinTerms printMono (t :: ts) ++ [']']).length + 1 ≤ f →
    monoLoop f none arr (joinTerms printMono (t :: ts) ++ [']']) =
      some ((t :: ts).map fun u => (u.coef, u.exps)) := by
  induction ts with
  | nil =>
    intro t f arr hl ha hf
    have ht := hl t (by simp)
    simp only [joinTerms] at hf ⊢
    obtain ⟨g, hg, e⟩ := monoLoop_term t f arr ']' [] (by rintro h; simp [h] at ht; omega)
      (by omega) hf
    rw [e]
    obtain ⟨g, rfl⟩ : ∃ g', g = g' + 1 := ⟨g - 1, by simp at hg; omega⟩
    rw [monoLoop, if_pos (by simp)]
    rfl
  | cons u ts ih =>
    intro t f arr hl ha hf
    have ht := hl t (by simp)
    simp only [joinTerms, List.append_assoc, List.cons_append] at hf ⊢
    obtain ⟨g, hg, e⟩ := monoLoop_term t f arr ',' (' ' :: (joinTerms printMono (u :: ts) ++ [']']))
      (by rintro h; simp [h] at ht; omega) (by omega) hf
    rw [e]
    simp only [List.length_cons] at hg
    obtain ⟨g, rfl⟩ : ∃ g', g = g' + 2 := ⟨g - 2, by omega⟩
    rw [monoLoop_skip _ _ _ _ (by decide) (by simp), monoLoop_skip _ _ _ _ (by decide) (by simp),
      ih u g t.exps (fun v hv => hl v (by simp at hv ⊢; tauto)) ht (by omega)]
    rfl

theorem printMono_split (t : Term ℚ) (rest : List Char) :
    printMono t ++ rest = ('[' :: (printRat t.coef ++ (',' :: ' ' :: '[' :: printVec t.exps))) ++
      ']' :: (']' :: rest) := by
  simp [printMono]

/-- **C25, text level.** The text printed for any non-empty list of terms in `n ≥ 1` variables is read
back as the same dimension, coefficients and exponents, whatever the uninitialised array contains. -/
theorem c25_parse_print (n : ℕ) (hn : 0 < n) (out : List (Term ℚ)) (hne : out ≠ [])
    (hl : ∀ t ∈ out, t.exps.length = n) (garbage : ℕ → ℤ) :
    ∃ text, printTerms printMono out = some text ∧
      parseMonomials garbage text = some (some (n, out.map fun t => (t.coef, t.exps))) := by
  obtain ⟨t, ts, rfl⟩ := List.exists_cons_of_ne_nil hne
  refine ⟨_, rfl, ?_⟩
  have hc : commas ('[' :: (joinTerms printMono (t :: ts) ++ [']'])) = some n := by
    have : ∃ rest, joinTerms printMono (t :: ts) ++ [']'] = printMono t ++ rest := by
      cases ts with
      | nil => exact ⟨_, rfl⟩
      | cons u ts => exact ⟨_, by simp only [joinTerms, List.append_assoc]; rfl⟩
    obtain ⟨rest, hr⟩ := this
    rw [hr, printMono_split, ← List.cons_append, count_take_bracket]
    · have h1 : (printRat t.coef).count ',' = 0 :=
        List.count_eq_zero.mpr (printRat_no t.coef ',' (by decide) (by decide) (by decide))
      simp only [List.count_cons, List.count_append, h1, printVec_commas, hl t (by simp)]
      simp; omega
    · simp only [List.mem_cons, List.mem_append, not_or]
      exact ⟨by decide, by decide, printRat_no _ _ (by decide) (by decide) (by decide), by decide,
        by decide, by decide, printVec_no _ _ (by decide) (by decide) (by decide) (by decide)⟩
  unfold parseMonomials
  rw [hc]
  obtain ⟨m, rfl⟩ : ∃ m, n = m + 1 := ⟨n - 1, by omega⟩
  simp only [List.tail_cons]
  rw [monoLoop_join (m + 1) hn ts t _ _ hl (by simp) (by simp)]
  rfl

/-- **C25.** Insert any monomials over `n ≥ 1` variables that do not all cancel into an empty polynomial.
Printing the polynomial succeeds; loading the text into a fresh object gives a polynomial that has the
same dimension, is iterated over alike (the same terms in the same order), and prints as the same text —
and the text is that of the delivered terms, each the sum of its inserted coefficients. -/
theorem c25_print_load (n : ℕ) (hn : 0 < n) (xs : List (Term ℚ))
    (hx : ∀ x ∈ xs, x.exps.length = n ∧ x.degree = -1) (hne : ∃ k, coefAt k xs ≠ 0)
    (garbage : ℕ → ℤ) :
    ∃ s s' text out N, insertAll (emptySum ℚ n) xs = some s ∧
      (∀ k, coefAt k out = coefAt k xs) ∧
      ∀ fuel rounds, N ≤ fuel → N ≤ rounds →
        printMonomials fuel rounds s = some text ∧
        loadMonomials garbage text = some s' ∧
        s'.varCount = n ∧ s'.termCount = out.length ∧
        drain fuel rounds (begin' s.trie n) = some out ∧
        drain fuel rounds (begin' s'.trie n) = some out ∧
        printMonomials fuel rounds s' = some text := by
  have hxn : ∃ x ∈ xs, x.coef ≠ 0 := by
    by_contra hno
    push Not at hno
    obtain ⟨k, hk⟩ := hne
    apply hk
    unfold coefAt
    apply List.sum_eq_zero
    intro q hq
    obtain ⟨x, hx, rfl⟩ := List.mem_map.mp hq
    split
    · exact hno x hx
    · rfl
  obtain ⟨s, e, out, ⟨N, hN⟩, a1, a2, a3⟩ := c21_store_is_map n hn xs (fun x h => (hx x h).1) hxn
  have hdeg : ∀ t ∈ out, t.degree = -1 := by
    intro t ht
    by_contra hd
    have h1 := coefAt_of_mem out a3 t ht
    rw [a2, coefAt_of_not_mem _ xs] at h1
    · exact (a1 t ht).1 h1.symm
    · intro x hx' hk
      unfold Term.key at hk
      simp only [Prod.mk.injEq] at hk
      exact hd (hk.1 ▸ (hx x hx').2)
  have hout : out ≠ [] := by
    rintro rfl
    obtain ⟨k, hk⟩ := hne
    exact hk (by rw [← a2]; rfl)
  obtain ⟨text, ht, hp⟩ := c25_parse_print n hn out hout (fun t h => (a1 t h).2) garbage
  have hback : (out.map fun t => (t.coef, t.exps)).map (fun m => (⟨m.1, m.2, -1⟩ : Term ℚ)) = out := by
    rw [List.map_map]
    conv_rhs => rw [← List.map_id out]
    apply List.map_congr_left
    intro t h
    have := hdeg t h
    cases t
    simp_all
  have hon : ∃ x ∈ out, x.coef ≠ 0 := by
    obtain ⟨t, ts, rfl⟩ := List.exists_cons_of_ne_nil hout
    exact ⟨t, by simp, (a1 t (by simp)).1⟩
  obtain ⟨s1, s2, out2, N2, e1, e2, hN2⟩ := c22_history_independent n hn (-1) xs out hx
    (fun t h => ⟨(a1 t h).2, hdeg t h⟩) hxn hon (fun k => (a2 k).symm)
  obtain ⟨s3, e3, o3⟩ := insertAll_ok n hn out (fun t h => (a1 t h).2)
  obtain rfl : s1 = s := by rw [e1] at e; exact Option.some.inj e
  obtain rfl : s3 = s2 := by rw [e3] at e2; exact Option.some.inj e2
  obtain ⟨s4, e4, o4⟩ := insertAll_ok n hn xs (fun t h => (hx t h).1)
  obtain rfl : s4 = s1 := by rw [e4] at e; exact Option.some.inj e
  obtain rfl : out2 = out := by
    have q1 := (hN2 (max N N2) (max N N2) (le_max_right _ _) (le_max_right _ _)).1
    rw [hN _ _ (le_max_left _ _) (le_max_left _ _)] at q1
    exact (Option.some.inj q1).symm
  refine ⟨s4, s3, text, out2, N2, e, a2, fun fuel rounds h1 h2 => ?_⟩
  obtain ⟨d1, d2⟩ := hN2 fuel rounds h1 h2
  refine ⟨?_, ?_, o3.vars, ?_, d1, d2, ?_⟩
  · unfold printMonomials
    rw [o4.vars, d1]; exact ht
  · unfold loadMonomials
    rw [hp]
    simp only
    rw [hback]
    exact e3
  · rw [o3.count]
    congr 1
    unfold nonzero
    rw [List.filter_eq_self]
    intro t h
    simpa using (a1 t h).1
  · unfold printMonomials
    rw [o3.vars, d2]; exact ht


/-! ## Powers of linear forms -/

theorem degFact_eq (d : ℤ) : degFact d = (d.toNat.factorial : ℤ) := by
  unfold degFact
  have : ∀ k : ℕ, (List.range k).foldl (fun (a : ℤ) (j : ℕ) => a * ((j : ℤ) + 1)) 1 = (k.factorial : ℤ) := by
    intro k
    induction k with
    | zero => rfl
    | succ k ih =>
      rw [List.range_succ, List.foldl_append, ih, Nat.factorial_succ]
      simp only [List.foldl_cons, List.foldl_nil]
      push_cast
      ring
  exact this _

/-- What the reader makes of a printed term: the coefficient multiplied by the factorial of the degree. -/
def rescale (t : Term ℚ) : Term ℚ := { t with coef := t.coef * (t.degree.toNat.factorial : ℚ) }

theorem formLoop_term (t : Term ℚ) (f : ℕ) (arr : List ℤ) (c : Char) (rest : List Char)
    (ht : t.exps ≠ []) (ha : arr.length = t.exps.length)
    (hf : (printForm t ++ c :: rest).length + 1 ≤ f) :
    ∃ g, (c :: rest).length + 2 ≤ g ∧
      formLoop f .coef arr (printForm t ++ c :: rest) =
        (formLoop g .coef t.exps (']' :: c :: rest)).map (rescale t :: ·) := by
  unfold printForm at hf ⊢
  simp only [List.length_cons, List.length_append, List.cons_append, List.append_assoc,
    List.nil_append] at hf ⊢
  obtain ⟨g, rfl⟩ : ∃ g, f = g + 5 := ⟨f - 5, by omega⟩
  refine ⟨g, by omega, ?_⟩
  rw [formLoop, if_neg (by simp)]
  simp only [if_pos]
  rw [scanTo_append _ _ _ _ _ (by decide)]
  · simp only [List.tail_cons]
    rw [parseRat_printRat, Option.bind_some, formLoop, if_neg (by simp)]
    simp only [Char.reduceEq, if_false]
    rw [formLoop, if_neg (by simp)]
    simp only [if_true]
    rw [scanTo_append _ _ _ _ _ (by decide)]
    · simp only [List.tail_cons]
      rw [atoi_printInt, formLoop, if_neg (by simp)]
      simp only [Char.reduceEq, if_false]
      rw [formLoop, if_neg (by simp)]
      simp only [if_true]
      rw [parseVec_print parseInt parseInt_printInt t.exps g 0 arr _ ht (by omega) (by omega)]
      simp only [List.take_zero, List.nil_append, List.tail_cons, degFact_eq, rescale]
      simp
    · intro x hx
      have : x ≠ ',' := by
        rintro rfl; exact printInt_no t.degree ',' (by decide) (by decide) hx
      simpa using this
  · intro x hx
    have : x ≠ ',' := by
      rintro rfl; exact printRat_no t.coef ',' (by decide) (by decide) (by decide) hx
    simpa using this

theorem formLoop_skip (f : ℕ) (st : LState) (arr : List ℤ) (c : Char) (rest : List Char) (hc : c ≠ '[')
    (hr : rest ≠ []) : formLoop (f + 1) st arr (c :: rest) = formLoop f st arr rest := by
  rw [formLoop.eq_def]
  simp only
  rw [if_neg]
  · simp only [if_neg hc]
  · have := List.length_pos_iff.mpr hr
    simp only [List.length_cons]; omega

theorem formLoop_join (n : ℕ) (hn : 0 < n) (ts : List (Term ℚ)) :
    ∀ (t : Term ℚ) (f : ℕ) (arr : List ℤ), (∀ u ∈ t :: ts, u.exps.length = n) → arr.length = n →
    (joinTerms printForm (t :: ts) ++ [']']).length + 1 ≤ f →
    formLoop f .coef arr (joinTerms printForm (t :: ts) ++ [']']) = some ((t :: ts).map rescale) := by
  induction ts with
  | nil =>
    intro t f arr hl ha hf
    have ht := hl t (by simp)
    simp only [joinTerms] at hf ⊢
    obtain ⟨g, hg, e⟩ := formLoop_term t f arr ']' [] (by rintro h; simp [h] at ht; omega)
      (by omega) hf
    rw [e]
    simp only [List.length_cons, List.length_nil] at hg
    obtain ⟨g, rfl⟩ : ∃ g', g = g' + 2 := ⟨g - 2, by omega⟩
    rw [formLoop_skip _ _ _ _ _ (by decide) (by simp), formLoop, if_pos (by simp)]
    rfl
  | cons u ts ih =>
    intro t f arr hl ha hf
    have ht := hl t (by simp)
    simp only [joinTerms, List.append_assoc, List.cons_append] at hf ⊢
    obtain ⟨g, hg, e⟩ := formLoop_term t f arr ',' (' ' :: (joinTerms printForm (u :: ts) ++ [']']))
      (by rintro h; simp [h] at ht; omega) (by omega) hf
    rw [e]
    simp only [List.length_cons] at hg
    obtain ⟨g, rfl⟩ : ∃ g', g = g' + 3 := ⟨g - 3, by omega⟩
    rw [formLoop_skip _ _ _ _ _ (by decide) (by simp), formLoop_skip _ _ _ _ _ (by decide) (by simp),
      formLoop_skip _ _ _ _ _ (by decide) (by simp),
      ih u g t.exps (fun v hv => hl v (by simp at hv ⊢; tauto)) ht (by omega)]
    rfl

theorem printForm_split (t : Term ℚ) (rest : List Char) :
    printForm t ++ rest = ('[' :: (printRat t.coef ++ (',' :: ' ' :: '[' :: (printInt t.degree ++
      ',' :: ' ' :: '[' :: printVec t.exps)))) ++ ']' :: (']' :: ']' :: rest) := by
  simp [printForm]

/-- **C47: what reading back does.** The text printed for any non-empty list of powers of linear forms in
`n ≥ 1` variables is read back as the same dimension, degrees and forms, with each coefficient multiplied
by the factorial of the degree. -/
theorem c47_parse_print_scales (n : ℕ) (hn : 0 < n) (out : List (Term ℚ)) (hne : out ≠ [])
    (hl : ∀ t ∈ out, t.exps.length = n) :
    ∃ text, printTerms printForm out = some text ∧
      parseLinForms text = some (some (n, out.map fun t =>
        ⟨t.coef * (t.degree.toNat.factorial : ℚ), t.exps, t.degree⟩)) := by
  obtain ⟨t, ts, rfl⟩ := List.exists_cons_of_ne_nil hne
  refine ⟨_, rfl, ?_⟩
  have hc : commas ('[' :: (joinTerms printForm (t :: ts) ++ [']'])) = some (n + 1) := by
    have : ∃ rest, joinTerms printForm (t :: ts) ++ [']'] = printForm t ++ rest := by
      cases ts with
      | nil => exact ⟨_, rfl⟩
      | cons u ts => exact ⟨_, by simp only [joinTerms, List.append_assoc]; rfl⟩
    obtain ⟨rest, hr⟩ := this
    rw [hr, printForm_split, ← List.cons_append, count_take_bracket]
    · have h1 : (printRat t.coef).count ',' = 0 :=
        List.count_eq_zero.mpr (printRat_no t.coef ',' (by decide) (by decide) (by decide))
      have h2 : (printInt t.degree).count ',' = 0 :=
        List.count_eq_zero.mpr (printInt_no t.degree ',' (by decide) (by decide))
      simp only [List.count_cons, List.count_append, h1, h2, printVec_commas, hl t (by simp)]
      simp; omega
    · simp only [List.mem_cons, List.mem_append, not_or]
      exact ⟨by decide, by decide, printRat_no _ _ (by decide) (by decide) (by decide), by decide,
        by decide, by decide, printInt_no _ _ (by decide) (by decide), by decide, by decide, by decide,
        printVec_no _ _ (by decide) (by decide) (by decide) (by decide)⟩
  unfold parseLinForms
  rw [hc]
  obtain ⟨m, rfl⟩ : ∃ m, n = m + 1 := ⟨n - 1, by omega⟩
  simp only [List.tail_cons]
  rw [formLoop_join (m + 1) hn ts t _ _ hl (by simp) (by simp)]
  rfl

/-- **C47, the part that holds.** If all degrees are at most one, the text is read back unchanged. -/
theorem c47_round_trip_partial (n : ℕ) (hn : 0 < n) (out : List (Term ℚ)) (hne : out ≠ [])
    (hl : ∀ t ∈ out, t.exps.length = n) (hd : ∀ t ∈ out, t.degree ≤ 1) :
    ∃ text, printTerms printForm out = some text ∧ parseLinForms text = some (some (n, out)) := by
  obtain ⟨text, h1, h2⟩ := c47_parse_print_scales n hn out hne hl
  refine ⟨text, h1, ?_⟩
  rw [h2]
  congr 3
  conv_rhs => rw [← List.map_id out]
  apply List.map_congr_left
  intro t ht
  have h := hd t ht
  have : t.degree.toNat = 0 ∨ t.degree.toNat = 1 := by omega
  rcases this with h | h <;> rw [h] <;> simp

/-- **C47 is violated** by every sum with a term of degree at least two (and non-zero coefficient): what
is read back differs from what was printed. -/
theorem c47_round_trip_violated (n : ℕ) (hn : 0 < n) (out : List (Term ℚ))
    (hl : ∀ t ∈ out, t.exps.length = n) (hd : ∃ t ∈ out, 2 ≤ t.degree ∧ t.coef ≠ 0) :
    ∃ text r, printTerms printForm out = some text ∧ parseLinForms text = some (some (n, r)) ∧
      r ≠ out := by
  obtain ⟨t, ht, hd, hc⟩ := hd
  obtain ⟨text, h1, h2⟩ := c47_parse_print_scales n hn out (List.ne_nil_of_mem ht) hl
  refine ⟨text, _, h1, h2, fun h => ?_⟩
  have h3 : ∀ u ∈ out, (⟨u.coef * (u.degree.toNat.factorial : ℚ), u.exps, u.degree⟩ : Term ℚ) = u := by
    have := (List.map_eq_map_iff (f := fun u : Term ℚ =>
      (⟨u.coef * (u.degree.toNat.factorial : ℚ), u.exps, u.degree⟩ : Term ℚ)) (g := id) (l := out)).mp
      (by rw [h, List.map_id])
    simpa using this
  have h4 := congrArg Term.coef (h3 t ht)
  simp only at h4
  have h5 : (t.degree.toNat.factorial : ℚ) = 1 := by
    have : t.coef * ((t.degree.toNat.factorial : ℚ) - 1) = 0 := by rw [mul_sub, h4]; ring
    rcases mul_eq_zero.mp this with h | h
    · exact absurd h hc
    · linarith
  have h6 : t.degree.toNat.factorial = 1 := by exact_mod_cast h5
  have h7 := Nat.self_le_factorial t.degree.toNat
  omega

/-- **C47, the effect on a store.** Loading the text gives, for each degree and form, the inserted
coefficient times the factorial of the degree (every list that can come out of a store qualifies). -/
theorem c47_load_scales (n : ℕ) (hn : 0 < n) (out : List (Term ℚ)) (hne : out ≠ [])
    (hl : ∀ t ∈ out, t.coef ≠ 0 ∧ t.exps.length = n) :
    ∃ text s out', printTerms printForm out = some text ∧ loadLinForms text = some s ∧
      (∃ N, ∀ fuel rounds, N ≤ fuel → N ≤ rounds →
        drain fuel rounds (begin' s.trie n) = some out') ∧
      ∀ d es, coefAt (d, es) out' = coefAt (d, es) out * (d.toNat.factorial : ℚ) := by
  obtain ⟨text, h1, h2⟩ := c47_parse_print_scales n hn out hne (fun t h => (hl t h).2)
  obtain ⟨t, ts, rfl⟩ := List.exists_cons_of_ne_nil hne
  obtain ⟨s, e, out', hN, a1, a2, a3⟩ := c21_store_is_map n hn ((t :: ts).map fun t =>
        (⟨t.coef * (t.degree.toNat.factorial : ℚ), t.exps, t.degree⟩ : Term ℚ))
      (by
        intro x hx
        obtain ⟨u, hu, rfl⟩ := List.mem_map.mp hx
        exact (hl u hu).2)
      ⟨_, List.mem_map.mpr ⟨t, by simp, rfl⟩, mul_ne_zero (hl t (by simp)).1
        (by exact_mod_cast Nat.factorial_ne_zero _)⟩
  refine ⟨text, s, out', h1, ?_, hN, ?_⟩
  · unfold loadLinForms
    rw [h2]
    exact e
  · intro d es
    rw [a2]
    clear e h1 h2 a1 a2 a3 hN hl hne
    generalize t :: ts = l
    induction l with
    | nil => simp [coefAt]
    | cons x l ih =>
      rw [List.map_cons, coefAt_cons, ih, coefAt_cons, add_mul]
      congr 1
      unfold one Term.key
      simp only [Prod.mk.injEq]
      split
      · rename_i h; rw [h.1]
      · simp

/-- Non-vacuous: a polynomial with a fraction, a negative coefficient and negative exponent. -/
example : ∃ text, printTerms printMono [⟨1/2, [0, 3], -1⟩, ⟨-7, [2, -1], -1⟩] = some text ∧
    String.ofList text = "[[1/2, [0, 3]], [-7, [2, -1]]]" ∧
    parseMonomials (fun _ => 99) text = some (some (2, [(1/2, [0, 3]), (-7, [2, -1])])) := by
  obtain ⟨text, h1, h2⟩ := c25_parse_print 2 (by decide) [⟨1/2, [0, 3], -1⟩, ⟨-7, [2, -1], -1⟩]
    (by simp) (by simp) (fun _ => 99)
  refine ⟨text, h1, ?_, h2⟩
  obtain rfl := Option.some.inj h1
  decide +kernel

/-- Non-vacuous: `(x + 2 y)^2` with stored coefficient 1 comes back as 2. -/
example : ∃ text, printTerms printForm [⟨1, [1, 2], 2⟩] = some text ∧
    String.ofList text = "[[1, [2, [1, 2]]]]" ∧
    parseLinForms text = some (some (2, [⟨2, [1, 2], 2⟩])) := by
  obtain ⟨text, h1, h2⟩ := c47_parse_print_scales 2 (by decide) [⟨1, [1, 2], 2⟩] (by simp) (by simp)
  refine ⟨text, h1, ?_, ?_⟩
  · obtain rfl := Option.some.inj h1
    decide +kernel
  · rw [h2]
    simp

/-- Non-vacuous: the hypothesis of `c25_print_load`. -/
example : ∃ k, coefAt k ([⟨1/2, [0, 3], -1⟩, ⟨-7, [2, -1], -1⟩] : List (Term ℚ)) ≠ 0 :=
  ⟨(-1, [0, 3]), by decide +kernel⟩

end Verif.Trie.Text
