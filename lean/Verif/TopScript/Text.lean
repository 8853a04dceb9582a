import Verif.TopScript.Spec
import Verif.Trie.Text

/-!
# The script is read as it is meant
-/

namespace Verif.TopScript

open Verif.Barvinok Verif.Barvinok.Spec Verif.Ti2
open Verif.Trie (Term)
open Verif.Trie.Text (printRat)
open Latte.Decimal

variable {n : ℕ}

/-- The text is read as the value whatever follows, if it does not look like a part of a number. -/
def Reads (N : ℕ) (s : List Char) (v : Maple) : Prop := ∀ f, N ≤ f → ∀ rest : List Char, (∀ c ∈ rest.head?, isNum c = false) → readValue f (s ++ rest) = some (v, rest)

theorem Reads.mono {N M : ℕ} {s : List Char} {v : Maple} (h : Reads N s v) (hNM : N ≤ M) : Reads M s v := fun f hf => h f (hNM.trans hf)

theorem Reads.readsAs {N : ℕ} {s : List Char} {v : Maple} (h : Reads N s v) : ReadsAs s v :=
  ⟨N, fun f hf => by simpa using h f hf [] (by simp)⟩

theorem takeWhile_num (tok rest : List Char) (h : ∀ c ∈ tok, isNum c = true) (hr : ∀ c ∈ rest.head?, isNum c = false) :
    (tok ++ rest).takeWhile isNum = tok ∧ (tok ++ rest).dropWhile isNum = rest := by
  induction tok with
  | nil =>
    cases rest with
    | nil => simp
    | cons c cs =>
      have := hr c (by simp)
      simp [this]
  | cons c cs ih =>
    have h1 := h c (by simp)
    obtain ⟨i1, i2⟩ := ih fun c hc => h c (by simp [hc])
    rw [List.cons_append, List.takeWhile_cons, List.dropWhile_cons, if_pos h1, if_pos h1, i1, i2]
    exact ⟨rfl, rfl⟩

theorem num_not_space (c : Char) (h : isNum c = true) : isSpace c = false ∧ c ≠ '[' := by
  unfold isNum at h
  rw [Bool.or_eq_true, Bool.or_eq_true, beq_iff_eq, beq_iff_eq] at h
  rcases h with (h | rfl) | rfl
  · exact ⟨isDigit_not_space h, isDigit_ne h '[' (by decide)⟩
  · exact ⟨by decide, by decide⟩
  · exact ⟨by decide, by decide⟩

/-- A token of number characters is read as a number. -/
theorem reads_tok (tok : List Char) (v : Maple) (hne : tok ≠ []) (h : ∀ c ∈ tok, isNum c = true)
    (hv : ∀ rest : List Char, (∀ c ∈ rest.head?, isNum c = false) → readNum (tok ++ rest) = some (v, rest)) : Reads 1 tok v := by
  intro f hf rest hr
  obtain ⟨f, rfl⟩ := Nat.exists_eq_succ_of_ne_zero (by omega : f ≠ 0)
  obtain ⟨c, cs, rfl⟩ := List.exists_cons_of_ne_nil hne
  obtain ⟨h1, h2⟩ := num_not_space c (h c (by simp))
  have hs : skip (c :: cs ++ rest) = c :: (cs ++ rest) := by
    unfold skip
    rw [List.cons_append, List.dropWhile_cons, if_neg (by simp [h1])]
  rw [readValue, hs]
  dsimp only
  rw [if_neg h2]
  exact hv rest hr

theorem int_chars (z : ℤ) : ∀ c ∈ printInt z, isNum c = true ∧ c ≠ '/' := by
  intro c hc
  rcases printInt_chars z c hc with h | rfl
  · exact ⟨by simp [isNum, h], isDigit_ne h '/' (by decide)⟩
  · exact ⟨by decide, by decide⟩

theorem split_slash (a b : List Char) (ha : ∀ c ∈ a, c ≠ '/') :
    (a ++ '/' :: b).takeWhile (· ≠ '/') = a ∧ (a ++ '/' :: b).dropWhile (· ≠ '/') = '/' :: b := by
  induction a with
  | nil => simp
  | cons c cs ih =>
    obtain ⟨i1, i2⟩ := ih fun c hc => ha c (by simp [hc])
    have h1 : decide (c ≠ '/') = true := by simpa using ha c (by simp)
    rw [List.cons_append, List.takeWhile_cons, List.dropWhile_cons, if_pos h1, if_pos h1, i1, i2]
    exact ⟨rfl, rfl⟩

theorem no_slash (a : List Char) (ha : ∀ c ∈ a, c ≠ '/') : a.dropWhile (· ≠ '/') = [] := by
  induction a with
  | nil => rfl
  | cons c cs ih =>
    have h1 : decide (c ≠ '/') = true := by simpa using ha c (by simp)
    rw [List.dropWhile_cons, if_pos h1]
    exact ih fun c hc => ha c (by simp [hc])

theorem reads_int (z : ℤ) : Reads 1 (printInt z) (.num z) := by
  refine reads_tok _ _ (printInt_ne_nil z) (fun c hc => (int_chars z c hc).1) fun rest hr => ?_
  obtain ⟨h1, h2⟩ := takeWhile_num (printInt z) rest (fun c hc => (int_chars z c hc).1) hr
  unfold readNum
  dsimp only
  rw [h1, h2, no_slash _ fun c hc => (int_chars z c hc).2]
  dsimp only
  rw [parseInt_printInt]
  rfl

theorem reads_rat (q : ℚ) : Reads 1 (printRat q) (.num q) := by
  unfold printRat Latte.Rational.print
  dsimp only
  by_cases hd : ((q.den : ℕ) : ℤ) = 1
  · rw [if_neg (by simpa using hd), List.append_nil]
    have : q = (q.num : ℚ) := by
      conv_lhs => rw [← Rat.num_div_den q]
      rw [show (q.den : ℚ) = 1 from by exact_mod_cast hd, div_one]
    have h := reads_int q.num
    rwa [← this] at h
  · rw [if_pos hd]
    have hch : ∀ c ∈ printInt q.num ++ '/' :: printInt (q.den : ℤ), isNum c = true := by
      intro c hc
      rcases List.mem_append.1 hc with hc | hc
      · exact (int_chars _ c hc).1
      · rcases List.mem_cons.1 hc with rfl | hc
        · decide
        · exact (int_chars _ c hc).1
    refine reads_tok _ _ (by simp) hch fun rest hr => ?_
    obtain ⟨h1, h2⟩ := takeWhile_num _ rest hch hr
    obtain ⟨h3, h4⟩ := split_slash (printInt q.num) (printInt (q.den : ℤ)) fun c hc => (int_chars _ c hc).2
    unfold readNum
    dsimp only
    rw [h1, h2, h4, h3]
    dsimp only
    rw [parseInt_printInt, parseInt_printInt]
    dsimp only
    rw [Int.cast_natCast, Rat.num_div_den]

/-! ## White space -/

theorem skip_append (ws s : List Char) (h : ∀ c ∈ ws, isSpace c = true) : skip (ws ++ s) = skip s := by
  unfold skip
  induction ws with
  | nil => rfl
  | cons c cs ih => rw [List.cons_append, List.dropWhile_cons, if_pos (h c (by simp)), ih fun c hc => h c (by simp [hc])]

theorem readValue_space (ws s : List Char) (h : ∀ c ∈ ws, isSpace c = true) (f : ℕ) : readValue f (ws ++ s) = readValue f s := by
  cases f with
  | zero => rfl
  | succ f => rw [readValue, readValue, skip_append ws s h]

theorem readItems_space (ws s : List Char) (h : ∀ c ∈ ws, isSpace c = true) (f : ℕ) : readItems f (ws ++ s) = readItems f s := by
  cases f with
  | zero => rfl
  | succ f => rw [readItems, readItems, readValue_space ws s h]

theorem Reads.space {N : ℕ} {s : List Char} {v : Maple} (h : Reads N s v) (ws : List Char) (hw : ∀ c ∈ ws, isSpace c = true) : Reads N (ws ++ s) v := by
  intro f hf rest hr
  rw [List.append_assoc, readValue_space ws _ hw]
  exact h f hf rest hr

/-! ## Lists -/

theorem readItems_list (ws : List Char) (hw : ∀ c ∈ ws, isSpace c = true) (N : ℕ) (rest : List Char) : ∀ (items : List (List Char × Maple)), items ≠ [] →
    (∀ p ∈ items, Reads N p.1 p.2) → ∀ f, N + items.length ≤ f →
      readItems f (sepBy (',' :: ws) (items.map (·.1)) ++ ']' :: rest) = some (items.map (·.2), rest) := by
  intro items
  induction items with
  | nil => intro h; exact absurd rfl h
  | cons p items ih =>
    intro _ hR f hf
    rw [List.length_cons] at hf
    obtain ⟨f, rfl⟩ := Nat.exists_eq_succ_of_ne_zero (by omega : f ≠ 0)
    have hp := hR p (by simp)
    cases items with
    | nil =>
      simp only [List.map_cons, List.map_nil, sepBy]
      rw [readItems, hp f (by omega) (']' :: rest) (by intro c hc; cases hc; decide)]
      rfl
    | cons q items =>
      have e : sepBy (',' :: ws) ((p :: q :: items).map (·.1)) ++ ']' :: rest =
          p.1 ++ ',' :: (ws ++ (sepBy (',' :: ws) ((q :: items).map (·.1)) ++ ']' :: rest)) := by
        simp [sepBy]
      rw [e, readItems, hp f (by omega) _ (by intro c hc; cases hc; decide)]
      dsimp only
      have hs : ∀ r : List Char, skip (',' :: r) = ',' :: r := fun r => by
        unfold skip
        rw [List.dropWhile_cons, if_neg (by decide)]
      rw [hs]
      change Option.map (fun x : List Maple × List Char => (p.2 :: x.1, x.2)) (readItems f (ws ++ (sepBy (',' :: ws) ((q :: items).map (·.1)) ++ ']' :: rest))) = _
      rw [readItems_space ws _ hw, ih (by simp) (fun p hp => hR p (by simp only [List.mem_cons] at hp ⊢; tauto)) f (by simp only [List.length_cons] at hf ⊢; omega)]
      rfl

theorem not_bracket {N : ℕ} {s : List Char} {v : Maple} (h : Reads N s v) (rest : List Char) (hr : ∀ c ∈ rest.head?, isNum c = false) (r : List Char) :
    skip (s ++ rest) ≠ ']' :: r := by
  intro e
  have h1 := h (N + 1) (by omega) rest hr
  rw [readValue, e] at h1
  dsimp only at h1
  rw [if_neg (by decide)] at h1
  unfold readNum at h1
  have ht : (']' :: r).takeWhile isNum = [] := by rw [List.takeWhile_cons, if_neg (by decide)]
  simp only [ht] at h1
  have hp : parseInt [] = none := by decide
  simp [hp] at h1

theorem reads_list (ws : List Char) (hw : ∀ c ∈ ws, isSpace c = true) (N : ℕ) (items : List (List Char × Maple)) (hR : ∀ p ∈ items, Reads N p.1 p.2) :
    Reads (N + items.length + 1) ('[' :: (sepBy (',' :: ws) (items.map (·.1)) ++ [']'])) (.list (items.map (·.2))) := by
  intro f hf rest hr
  obtain ⟨f, rfl⟩ := Nat.exists_eq_succ_of_ne_zero (by omega : f ≠ 0)
  have e : '[' :: (sepBy (',' :: ws) (items.map (·.1)) ++ [']']) ++ rest = '[' :: (sepBy (',' :: ws) (items.map (·.1)) ++ ']' :: rest) := by simp
  have hs : ∀ r : List Char, skip ('[' :: r) = '[' :: r := fun r => by
    unfold skip
    rw [List.dropWhile_cons, if_neg (by decide)]
  rw [e, readValue, hs]
  dsimp only
  rw [if_pos rfl]
  cases items with
  | nil =>
    have h0 : skip (sepBy (',' :: ws) (([] : List (List Char × Maple)).map (·.1)) ++ ']' :: rest) = ']' :: rest := by
      unfold skip
      simp only [List.map_nil, sepBy, List.nil_append]
      rw [List.dropWhile_cons, if_neg (by decide)]
    rw [h0]
    rfl
  | cons p items =>
    have hrd := readItems_list ws hw N rest (p :: items) (by simp) hR f (by omega)
    split
    · rename_i r' heq
      exfalso
      cases items with
      | nil => exact not_bracket (hR p (by simp)) (']' :: rest) (by intro c hc; cases hc; decide) r' heq
      | cons q items =>
        refine not_bracket (hR p (by simp)) (',' :: (ws ++ (sepBy (',' :: ws) ((q :: items).map (·.1)) ++ ']' :: rest))) (by intro c hc; cases hc; decide) r' ?_
        rw [← heq]
        simp [sepBy]
    · rw [hrd]
      rfl

/-- The same for items given by functions. -/
theorem reads_map {α : Type} (ws : List Char) (hw : ∀ c ∈ ws, isSpace c = true) (N : ℕ) (l : List α) (tx : α → List Char) (val : α → Maple)
    (hR : ∀ a ∈ l, Reads N (tx a) (val a)) : ∃ M, Reads M ('[' :: (sepBy (',' :: ws) (l.map tx) ++ [']'])) (.list (l.map val)) := by
  have := reads_list ws hw N (l.map fun a => (tx a, val a)) (by
    intro p hp
    obtain ⟨a, ha, rfl⟩ := List.mem_map.1 hp
    exact hR a ha)
  rw [List.map_map, List.map_map] at this
  exact ⟨_, this⟩

theorem uniform {α : Type} (l : List α) (tx : α → List Char) (val : α → Maple) (h : ∀ a ∈ l, ∃ N, Reads N (tx a) (val a)) :
    ∃ N, ∀ a ∈ l, Reads N (tx a) (val a) := by
  induction l with
  | nil => exact ⟨0, by simp⟩
  | cons a l ih =>
    obtain ⟨N, hN⟩ := ih fun a ha => h a (by simp [ha])
    obtain ⟨M, hM⟩ := h a (by simp)
    refine ⟨max N M, fun b hb => ?_⟩
    rcases List.mem_cons.1 hb with rfl | hb
    · exact hM.mono (le_max_right _ _)
    · exact (hN b hb).mono (le_max_left _ _)

theorem reads_items {α : Type} (ws : List Char) (hw : ∀ c ∈ ws, isSpace c = true) (l : List α) (tx : α → List Char) (val : α → Maple)
    (hR : ∀ a ∈ l, ∃ N, Reads N (tx a) (val a)) : ∃ M, Reads M ('[' :: (sepBy (',' :: ws) (l.map tx) ++ [']'])) (.list (l.map val)) := by
  obtain ⟨N, hN⟩ := uniform l tx val hR
  exact reads_map ws hw N l tx val hN

/-! ## Cones and forms -/

theorem reads_ray (r : Vec n) : ∃ N, Reads N (rayText r) (.list (List.ofFn fun i => .num (r i))) := by
  obtain ⟨N, h⟩ := reads_items [' '] (by decide) (List.finRange n) (fun i => printInt (r i)) (fun i => .num (r i)) fun i _ => ⟨1, reads_int (r i)⟩
  refine ⟨N, ?_⟩
  have h2 := h.space ['\n', '\t'] (by decide)
  rw [← List.ofFn_eq_map, ← List.ofFn_eq_map] at h2
  unfold rayText
  simpa using h2

theorem reads_cone (C : GCone n) : ∃ N, Reads N (coneText C) (mapleCone (C.vertex, C.rays)) := by
  obtain ⟨N, h⟩ := reads_items [' '] (by decide) (List.finRange n) (fun i => printRat (C.vertex i)) (fun i => .num (C.vertex i)) fun i _ => ⟨1, reads_rat (C.vertex i)⟩
  rw [← List.ofFn_eq_map, ← List.ofFn_eq_map] at h
  obtain ⟨M, h'⟩ := reads_items [] (by simp) C.rays rayText (fun r => .list (List.ofFn fun i => .num (r i))) fun r _ => reads_ray r
  obtain ⟨K, h''⟩ := reads_items [' '] (by decide) [true, false]
    (fun b : Bool => if b then '[' :: (sepBy [',', ' '] (List.ofFn fun i => printRat (C.vertex i)) ++ [']']) else '[' :: (sepBy [','] (C.rays.map rayText) ++ [']']))
    (fun b : Bool => if b then .list (List.ofFn fun i => .num (C.vertex i)) else .list (C.rays.map fun r => .list (List.ofFn fun i => .num (r i)))) (by
      intro b _
      cases b
      · exact ⟨M, h'⟩
      · exact ⟨N, h⟩)
  refine ⟨K, ?_⟩
  have h3 := h''.space ['\n'] (by decide)
  unfold coneText mapleCone
  simpa [sepBy] using h3

theorem degFactorial_eq (d : ℕ) : degFactorial d = (d.factorial : ℤ) := by
  unfold degFactorial
  have key : ∀ k ≤ d, ∀ a : ℤ, (List.range k).foldl (fun (a : ℤ) (i : ℕ) => a * ((d : ℤ) - i)) a = a * (d.descFactorial k : ℤ) := by
    intro k
    induction k with
    | zero => intro _ a; simp
    | succ k ih =>
      intro hk a
      rw [List.range_succ, List.foldl_append, ih (by omega), Nat.descFactorial_succ]
      simp only [List.foldl_cons, List.foldl_nil]
      push_cast [Nat.cast_sub (by omega : k ≤ d)]
      ring
  rw [Int.toNat_natCast, key _ (by omega), one_mul]
  congr 1
  cases d with
  | zero => rfl
  | succ d =>
    have := Nat.descFactorial_succ (d + 1) d
    rw [Nat.descFactorial_self] at this
    rw [this]
    simp

/-- What a stored term stands for. -/
def formOf (n : ℕ) (t : Term ℚ) : ℚ × ℕ × (Fin n → ℤ) := (t.coef / (t.degree.toNat.factorial : ℚ), t.degree.toNat, fun j => t.exps.getD j 0)

theorem reads_form (t : Term ℚ) (hd : 0 ≤ t.degree) (hl : t.exps.length = n) : ∃ N, Reads N (formText t) (mapleForm (formOf n t)) := by
  obtain ⟨d, hd'⟩ := Int.eq_ofNat_of_zero_le hd
  obtain ⟨N, h⟩ := reads_items [' '] (by decide) t.exps printInt (fun z : ℤ => .num (z : ℚ)) fun z _ => ⟨1, reads_int z⟩
  obtain ⟨M, h'⟩ := reads_items [' '] (by decide) [true, false]
    (fun b : Bool => if b then printInt t.degree else '[' :: (sepBy [',', ' '] (t.exps.map printInt) ++ [']']))
    (fun b : Bool => if b then .num (t.degree : ℚ) else .list (t.exps.map fun z : ℤ => .num (z : ℚ))) (by
      intro b _
      cases b
      · exact ⟨N, h⟩
      · exact ⟨1, reads_int t.degree⟩)
  obtain ⟨K, h''⟩ := reads_items [' '] (by decide) [true, false]
    (fun b : Bool => if b then printRat (t.coef / (degFactorial t.degree : ℚ)) else
      '[' :: (sepBy [',', ' '] ([true, false].map fun b : Bool => if b then printInt t.degree else '[' :: (sepBy [',', ' '] (t.exps.map printInt) ++ [']'])) ++ [']']))
    (fun b : Bool => if b then .num (t.coef / (degFactorial t.degree : ℚ)) else .list ([true, false].map fun b : Bool =>
      if b then .num (t.degree : ℚ) else .list (t.exps.map fun z : ℤ => .num (z : ℚ)))) (by
      intro b _
      cases b
      · exact ⟨M, h'⟩
      · exact ⟨1, reads_rat _⟩)
  refine ⟨K, ?_⟩
  have hof : (List.ofFn fun i : Fin n => Maple.num ((t.exps.getD i 0 : ℤ) : ℚ)) = t.exps.map fun z : ℤ => Maple.num (z : ℚ) := by
    apply List.ext_getElem
    · simp [hl]
    · intro i h1 h2
      simp at h2
      simp [h2]
  have hfac : degFactorial t.degree = (t.degree.toNat.factorial : ℤ) := by
    rw [hd', degFactorial_eq, Int.toNat_natCast]
  have hdeg : ((t.degree.toNat : ℕ) : ℚ) = (t.degree : ℚ) := by
    rw [hd', Int.toNat_natCast, Int.cast_natCast]
  have hval : mapleForm (formOf n t) = .list [.num (t.coef / (degFactorial t.degree : ℚ)), .list [.num (t.degree : ℚ), .list (t.exps.map fun z : ℤ => .num (z : ℚ))]] := by
    unfold mapleForm formOf
    dsimp only
    rw [hof, hdeg, hfac, Int.cast_natCast]
  rw [hval]
  unfold formText
  simpa [sepBy] using h''

theorem sepBy_flatten (sep : List Char) : ∀ Ls : List (List (List Char)), (∀ L ∈ Ls, L ≠ []) → sepBy sep (Ls.map (sepBy sep)) = sepBy sep Ls.flatten := by
  have app : ∀ (A B : List (List Char)), A ≠ [] → B ≠ [] → sepBy sep (A ++ B) = sepBy sep A ++ sep ++ sepBy sep B := by
    intro A
    induction A with
    | nil => intro B h; exact absurd rfl h
    | cons a A ih =>
      intro B _ hB
      cases A with
      | nil =>
        obtain ⟨b, B, rfl⟩ := List.exists_cons_of_ne_nil hB
        rfl
      | cons a' A =>
        have := ih B (by simp) hB
        simp only [List.cons_append] at this ⊢
        rw [sepBy, sepBy, this]
        simp
  intro Ls
  induction Ls with
  | nil => intro _; rfl
  | cons L Ls ih =>
    intro h
    have ih := ih fun L hL => h L (by simp [hL])
    cases Ls with
    | nil => simp [sepBy]
    | cons L' Ls =>
      have hne : (L' :: Ls).flatten ≠ [] := by
        rw [List.flatten_cons]
        have := h L' (by simp)
        simp [this]
      rw [List.flatten_cons, app L _ (h L (by simp)) hne, ← ih]
      rfl

/-- **The script says what it is made of.** -/
theorem script_says (dir : List Char) (o : Options) (ho : o.coefficients = -1 ∨ 0 < o.coefficients) (Ss : List (List (GCone n))) (hne : ∀ S ∈ Ss, S ≠ [])
    (ts : List (Term ℚ)) (ht : ∀ t ∈ ts, 0 ≤ t.degree ∧ t.exps.length = n) :
    Says (script dir o n Ss ts) n o (Ss.flatten.map fun C => (C.vertex, C.rays)) (ts.map (formOf n)) := by
  obtain ⟨N, h⟩ := reads_items [] (by simp) Ss.flatten coneText (fun C => mapleCone (C.vertex, C.rays)) fun C _ => reads_cone C
  obtain ⟨M, h'⟩ := reads_items [' ', '\n', '\t'] (by decide) ts formText (fun t => mapleForm (formOf n t)) fun t h => reads_form t (ht t h).1 (ht t h).2
  have e1 : conesText Ss = '[' :: (sepBy [','] (Ss.flatten.map coneText) ++ [']']) := by
    have := sepBy_flatten [','] (Ss.map fun S => S.map coneText) (by
      intro L hL
      obtain ⟨S, hS, rfl⟩ := List.mem_map.1 hL
      simpa using hne S hS)
    rw [List.map_map, ← List.map_flatten] at this
    unfold conesText
    rw [← this]
    rfl
  refine ⟨"read(\"".toList ++ dir ++ "/Conebyconeapproximations_08_11_2010.mpl\"):\n\n\n seed:=randomize():\n".toList, conesText Ss, formsText ts,
    "printf(\"Starting to compute the Ehrhart polynomial\\n\");\nt1:=time():\n".toList,
    "t2:=time()-t1:\n\n\nprintf(\"\\n\\n\\nThe Ehrhart polynomial=%a\\n\", epoly);\n\n".toList ++
      "printf(\"Evaluation at 1 is %a\\n\", eval(subs({T=1,t=1, MOD=latteMod},epoly)));\n\nprintf(\"Total Maple time %a\\n\", t2);\n\n".toList, ?_, ?_, ?_⟩
  · have hm1 : printInt (-1) = "-1".toList := by decide
    have h1 : (if o.coefficients ≥ 0 then "findEhrhartPolynomial".toList ++ "(t, T, simpleCones, linearForms,".toList ++ printInt n
        else "printIncrementalEhrhartPolynomial".toList ++ "(t, T, simpleCones, linearForms,".toList ++ printInt n) =
        (if o.coefficients = -1 then "printIncrementalEhrhartPolynomial".toList else "findEhrhartPolynomial".toList) ++ "(t, T, simpleCones, linearForms,".toList ++ printInt n := by
      rcases ho with ho | ho
      · rw [if_neg (by rw [ho]; decide), if_pos ho]
      · rw [if_pos ho.le, if_neg (by rintro h; rw [h] at ho; exact absurd ho (by decide))]
    have h2 : (if o.coefficients ≥ 0 then ", ".toList ++ printInt o.coefficients else ", ".toList ++ "-1".toList) = ", ".toList ++ printInt o.coefficients := by
      rcases ho with ho | ho
      · rw [if_neg (by rw [ho]; decide), ho, hm1]
      · rw [if_pos ho.le]
    have h3 : (if o.save = "-1".toList then ", ".toList ++ printInt (-1) ++ "):".toList else ", ".toList ++ "\"".toList ++ o.save ++ "\"".toList ++ "):".toList) =
        ", ".toList ++ (if o.save = "-1".toList then "-1".toList else "\"".toList ++ o.save ++ "\"".toList) ++ "):".toList := by
      rw [hm1]
      split <;> simp only [List.append_assoc]
    unfold script callText
    rw [h1, h2, h3]
    simp only [List.append_assoc]
  · rw [e1, List.map_map]
    exact h.readsAs
  · have e2 : formsText ts = '[' :: (sepBy [',', ' ', '\n', '\t'] (ts.map formText) ++ [']']) := rfl
    rw [e2, List.map_map]
    exact h'.readsAs

end Verif.TopScript
