import Verif.Shell.Model

/-! C11: quoting a file name for the shell. -/

namespace Latte.Shell

theorem plain_ok : ∀ c ∈ plainChars, c ≠ '\'' ∧ c ≠ '\\' ∧ ¬(c = ' ' ∨ c = '\t') ∧ specialChars.contains c = false := by
  decide +kernel

theorem split_plain_append (a rest : List Char) (cur : Option (List Char)) (h : ∀ c ∈ a, c ∈ plainChars) (hne : a ≠ []) :
    split .plain cur (a ++ rest) = split .plain (some (cur.getD [] ++ a)) rest := by
  induction a generalizing cur with
  | nil => exact absurd rfl hne
  | cons c cs ih =>
    obtain ⟨h1, h2, h3, h4⟩ := plain_ok c (h c (List.mem_cons_self ..))
    simp only [List.cons_append]
    rw [split, if_neg h1, if_neg h2, if_neg h3, h4]
    simp only [Bool.false_eq_true, if_false]
    cases cs with
    | nil => simp [app]
    | cons d ds =>
      rw [ih (app cur c) (fun x hx => h x (List.mem_cons_of_mem _ hx)) (by simp)]
      simp [app]

theorem split_quoted_append (a rest : List Char) (w : List Char) (h : '\'' ∉ a) :
    split .quoted (some w) (a ++ '\'' :: rest) = split .plain (some (w ++ a)) rest := by
  induction a generalizing w with
  | nil => simp [split]
  | cons c cs ih =>
    have h1 : c ≠ '\'' := fun e => h (by simp [e])
    simp only [List.cons_append]
    rw [split, if_neg h1, app]
    simp only [Option.getD_some]
    rw [ih _ (fun e => h (List.mem_cons_of_mem _ e))]
    simp

theorem escapeBody_id (a : List Char) (h : '\'' ∉ a) : escapeBody a = a := by
  induction a with
  | nil => rfl
  | cons c cs ih =>
    have h1 : c ≠ '\'' := fun e => h (by simp [e])
    rw [escapeBody, if_neg h1, ih (fun e => h (List.mem_cons_of_mem _ e))]

theorem split_quote (a rest : List Char) (cur : Option (List Char)) (hne : a ≠ []) (h : '\'' ∉ a) :
    split .plain cur (shellQuote a ++ rest) = split .plain (some (cur.getD [] ++ a)) rest := by
  unfold shellQuote
  split
  · rw [escapeBody_id a h]
    simp only [List.cons_append, List.append_assoc, List.nil_append]
    rw [split, if_pos rfl, split_quoted_append a rest _ h]
  · rename_i hn
    apply split_plain_append _ _ _ _ hne
    intro c hc
    simp only [List.any_eq_true, not_exists, not_and] at hn
    have := hn c hc
    simpa using this

/-- **C11** For every non-empty name without a single quote, the quoted name is read by the shell as exactly one word,
equal to the name; and placed in a command line it never changes how the rest of the line is read.
Missing: names with a single quote and the empty name, for which the claim is false (below). -/
theorem c11_quote_partial (a : List Char) (hne : a ≠ []) (h : '\'' ∉ a) :
    shell (shellQuote a) = .words [a] ∧
    ∀ rest, shell (shellQuote a ++ ' ' :: rest) = (shell rest).push a := by
  constructor
  · have := split_quote a [] none hne h
    simpa [shell, split, flush, Out.push] using this
  · intro rest
    have := split_quote a (' ' :: rest) none hne h
    rw [shell, this, split]
    simp [shell, flush]

/-- **C11** violated: the empty name disappears. -/
theorem c11_empty_name_lost : shell (shellQuote []) = .words [] := by decide

theorem split_quoted_to_end (a : List Char) (w : List Char) (h : '\'' ∉ a) (rest : List Char) :
    split .quoted (some w) (a ++ '\\' :: '\'' :: rest) = split .plain (some (w ++ a ++ ['\\'])) rest := by
  have h' : '\'' ∉ a ++ ['\\'] := by
    simp only [List.mem_append, List.mem_singleton, not_or]
    exact ⟨h, by decide⟩
  have := split_quoted_append (a ++ ['\\']) rest w h'
  simpa using this

theorem escapeBody_append (a b : List Char) : escapeBody (a ++ b) = escapeBody a ++ escapeBody b := by
  induction a with
  | nil => rfl
  | cons c cs ih =>
    rw [List.cons_append, escapeBody, escapeBody]
    split <;> simp [ih]

theorem push_words {w : List Char} {o : Out} {ws} (h : o.push w = .words ws) : ∃ ws', ws = w :: ws' := by
  cases o <;> simp [Out.push] at h
  exact ⟨_, h.symm⟩

/-- once a word starting with `p` is being collected, no line is read as a first word not starting with `p` -/
theorem split_prefix (l : List Char) (m : Mode) (w : List Char) (ws : List (List Char))
    (h : split m (some w) l = .words ws) : ∃ s ws', ws = (w ++ s) :: ws' := by
  induction l generalizing m w with
  | nil =>
    cases m <;> simp [split, flush, Out.push] at h
    exact ⟨[], [], by simp [← h]⟩
  | cons c cs ih =>
    cases m with
    | plain =>
      rw [split] at h
      split at h
      · exact ih _ _ h
      · split at h
        · exact ih _ _ h
        · split at h
          · obtain ⟨ws', h'⟩ := push_words h
            exact ⟨[], ws', by simp [h']⟩
          · split at h
            · cases h
            · simp only [app, Option.getD_some] at h
              obtain ⟨s, ws', e⟩ := ih _ _ h
              exact ⟨c :: s, ws', by simpa using e⟩
    | quoted =>
      rw [split] at h
      split at h
      · exact ih _ _ h
      · simp only [app, Option.getD_some] at h
        obtain ⟨s, ws', e⟩ := ih _ _ h
        exact ⟨c :: s, ws', by simpa using e⟩
    | escaped =>
      rw [split] at h
      split at h
      · exact ih _ _ h
      · simp only [app, Option.getD_some] at h
        obtain ⟨s, ws', e⟩ := ih _ _ h
        exact ⟨c :: s, ws', by simpa using e⟩

theorem first_quote (a : List Char) (h : '\'' ∈ a) : ∃ x y, a = x ++ '\'' :: y ∧ '\'' ∉ x := by
  induction a with
  | nil => cases h
  | cons c cs ih =>
    by_cases hc : c = '\''
    · exact ⟨[], cs, by simp [hc], by simp⟩
    · have : '\'' ∈ cs := by
        rcases List.mem_cons.1 h with e | e
        · exact absurd e.symm hc
        · exact e
      obtain ⟨x, y, e, hx⟩ := ih this
      exact ⟨c :: x, y, by simp [e], by simp [hx, Ne.symm hc]⟩

theorem quote_of_quote (x y : List Char) (hx : '\'' ∉ x) :
    shell (shellQuote (x ++ '\'' :: y)) = split .plain (some (x ++ ['\\'])) (escapeBody y ++ ['\'']) := by
  have hany : (x ++ '\'' :: y).any (fun c => !plainChars.contains c) = true := by
    rw [List.any_eq_true]
    exact ⟨'\'', by simp, by decide +kernel⟩
  unfold shellQuote
  rw [if_pos hany, escapeBody_append, escapeBody_id x hx, escapeBody, if_pos rfl, shell, split, if_pos rfl]
  simp only [Option.getD_none, List.append_assoc, List.cons_append]
  have := split_quoted_to_end x [] hx (escapeBody y ++ ['\''])
  simpa using this

/-- **C11** violated for *every* name that contains a single quote: the shell never reads the quoted name as that
name. -/
theorem c11_single_quote_violated (a : List Char) (h : '\'' ∈ a) : shell (shellQuote a) ≠ .words [a] := by
  obtain ⟨x, y, rfl, hx⟩ := first_quote a h
  rw [quote_of_quote x y hx]
  intro he
  obtain ⟨s, ws', e⟩ := split_prefix _ _ _ _ he
  simp only [List.cons.injEq] at e
  have h1 := e.1
  rw [List.append_assoc, List.append_cancel_left_eq] at h1
  simp at h1

/-- **C11** violated, worst case: what follows the first single quote of the name (up to the next quote) is
interpreted by the shell; a special character there is acted upon. -/
theorem c11_injection (x w y : List Char) (c : Char) (hx : '\'' ∉ x) (hw : ∀ d ∈ w, d ∈ plainChars)
    (hc : c ∈ specialChars) : shell (shellQuote (x ++ '\'' :: (w ++ c :: y))) = .special c := by
  rw [quote_of_quote _ _ hx]
  have hw' : '\'' ∉ w := fun h => (plain_ok _ (hw _ h)).1 rfl
  have hcc : c ≠ '\'' ∧ c ≠ '\\' ∧ ¬(c = ' ' ∨ c = '\t') := by
    revert c; decide +kernel
  obtain ⟨c1, c2, c3⟩ := hcc
  have hcon : specialChars.contains c = true := by simpa using hc
  rw [escapeBody_append, escapeBody_id w hw', escapeBody, if_neg c1]
  have key : ∀ cur, split .plain cur (c :: (escapeBody y ++ ['\''])) = .special c := by
    intro cur
    rw [split, if_neg c1, if_neg c2, if_neg c3, hcon]
    simp
  cases w with
  | nil => simpa using key _
  | cons d ds =>
    rw [List.append_assoc, split_plain_append _ _ _ hw (by simp)]
    simpa using key _

/-- non-vacuity -/
example : shellQuote "my file$.ine".toList = "'my file$.ine'".toList ∧
    shell "polymake 'my file$.ine' DIM".toList =
      .words ["polymake".toList, "my file$.ine".toList, "DIM".toList] := by decide +kernel
/-- `x'; rm` : the shell sees an unquoted `;` -/
example : shell (shellQuote "x';rm".toList) = .special ';' := by decide +kernel

end Latte.Shell
