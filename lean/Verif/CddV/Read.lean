import Verif.CddV.Spec

/-!
# Reading the files of cdd
-/

namespace Verif.CddV

open Verif.Barvinok Verif.Brion Verif.Ti2 Latte.Decimal

variable {n : ℕ}

/-! ## The adjacencies -/

theorem readInts_map (l : List ℤ) (s : List Tok) : readInts l.length (l.map .int ++ s) = some (l, s) := by
  induction l with
  | nil => rfl
  | cons z l ih => simp only [List.length_cons, List.map_cons, List.cons_append, readInts, ih, Option.map_some]

theorem mem_upTo (r k z : ℤ) : z ∈ upTo r k ↔ r ≤ z ∧ z < k := by
  unfold upTo
  rw [List.mem_map]
  constructor
  · rintro ⟨i, hi, rfl⟩
    rw [List.mem_range] at hi
    omega
  · rintro ⟨h1, h2⟩
    exact ⟨(z - r).toNat, by rw [List.mem_range]; omega, by omega⟩

theorem nodup_upTo (r k : ℤ) : (upTo r k).Nodup := by
  unfold upTo
  refine List.Nodup.map ?_ List.nodup_range
  intro i j h
  simp only at h
  omega

theorem invert_spec (V : ℤ) : ∀ (l : List ℤ) (r : ℤ), l.Pairwise (· < ·) → (∀ k ∈ l, r ≤ k ∧ k ≤ V) →
    (∀ z, z ∈ invert V r l ↔ r ≤ z ∧ z ≤ V ∧ z ∉ l) ∧ (invert V r l).Nodup := by
  intro l
  induction l with
  | nil =>
    intro r _ _
    refine ⟨fun z => ?_, nodup_upTo _ _⟩
    show z ∈ upTo r (V + 1) ↔ _
    rw [mem_upTo]
    simp only [List.not_mem_nil, not_false_eq_true, and_true]
    omega
  | cons k l ih =>
    intro r hp hr
    obtain ⟨hk, hp'⟩ := List.pairwise_cons.1 hp
    obtain ⟨hrk, hkV⟩ := hr k List.mem_cons_self
    have hmax : max r k + 1 = k + 1 := by rw [max_eq_right hrk]
    obtain ⟨h1, h2⟩ := ih (k + 1) hp' fun k' hk' => ⟨by have := hk k' hk'; omega, (hr k' (List.mem_cons_of_mem _ hk')).2⟩
    have e : invert V r (k :: l) = upTo r k ++ invert V (k + 1) l := by rw [invert, hmax]
    rw [e]
    refine ⟨fun z => ?_, ?_⟩
    · rw [List.mem_append, mem_upTo, h1, List.mem_cons, not_or]
      constructor
      · rintro (⟨a, b⟩ | ⟨a, b, c⟩)
        · refine ⟨a, by omega, by omega, fun hz => ?_⟩
          have := hk z hz
          omega
        · exact ⟨by omega, b, by omega, c⟩
      · rintro ⟨a, b, c, d⟩
        by_cases h : z < k
        · exact Or.inl ⟨a, h⟩
        · exact Or.inr ⟨by omega, b, d⟩
    · rw [List.nodup_append']
      refine ⟨nodup_upTo _ _, h2, fun z hz hz' => ?_⟩
      rw [mem_upTo] at hz
      rw [h1] at hz'
      omega

/-- **Lists of adjacencies.** From a line of the file, in either form, the numbers of the adjacent vertices are read, each once. -/
theorem readLine_ok (V i : ℕ) (adj : ℤ → ℤ → Prop) (hadj : ∀ k, adj (i + 1) k → 1 ≤ k ∧ k ≤ V) (line s : List Tok) (h : IsLine V adj (i + 1) line) :
    ∃ l, readLine V i (line ++ s) = .ok (l, s) ∧ l.Nodup ∧ ∀ k, k ∈ l ↔ adj (i + 1) k := by
  obtain ⟨c, l, rfl, h⟩ := h
  have e : readLine V i (Tok.int (↑i + 1) :: Tok.int c :: Tok.word :: List.map Tok.int l ++ s) =
      if 0 ≤ c then
        match readInts c.toNat (l.map .int ++ s) with
        | none => .error false
        | some p => .ok p
      else
        match readInts ((V : ℤ) - -c).toNat (l.map .int ++ s) with
        | none => .error false
        | some (l, s) => .ok (invert V 1 l, s) := by
    simp only [List.cons_append, readLine]
    rw [if_neg (by omega)]
    rfl
  rw [e]
  rcases h with ⟨rfl, hn, hm⟩ | ⟨hc, hl, hp, hm⟩
  · rw [if_pos (by omega), Int.toNat_natCast, readInts_map]
    exact ⟨l, rfl, hn, hm⟩
  · rw [if_neg (by omega), show ((V : ℤ) - -c).toNat = l.length by omega, readInts_map]
    obtain ⟨h1, h2⟩ := invert_spec V l 1 hp fun k hk => ⟨((hm k).1 hk).1, ((hm k).1 hk).2.1⟩
    refine ⟨_, rfl, h2, fun k => ?_⟩
    rw [h1, hm]
    constructor
    · rintro ⟨a, b, c⟩
      by_contra hn
      exact c ⟨a, b, hn⟩
    · intro hk
      obtain ⟨a, b⟩ := hadj k hk
      exact ⟨a, b, fun ⟨_, _, hn⟩ => hn hk⟩

/-! ## One row -/

theorem skipBlank_space (c d : Char) (s : List Char) (h : blank c = true) : skipBlank (d :: s) c = if d = '0' then .zero else skipBlank s d := by
  rw [skipBlank, if_pos h]

theorem skipBlank_other (c : Char) (s : List Char) (h : blank c = false) : skipBlank s c = .text (c :: s) := by
  cases s <;> rw [skipBlank, if_neg (by simp [h])]

theorem slash_append (l s : List Char) (h : ∀ c ∈ l, c ≠ '\n' ∧ c ≠ '\r') : slash (l ++ '\n' :: s) = some (decide ('/' ∈ l)) := by
  induction l with
  | nil => simp [slash]
  | cons c l ih =>
    rw [List.cons_append, slash, if_neg (by have := h c List.mem_cons_self; tauto), ih fun c' hc' => h c' (List.mem_cons_of_mem _ hc')]
    simp only [Option.map_some, Option.some.injEq, List.mem_cons]
    by_cases h1 : c = '/'
    · simp [h1]
    · have : ¬ '/' = c := fun e => h1 e.symm
      simp [h1, this]

theorem printInt_plain (z : ℤ) : ∀ c ∈ printInt z, c ≠ '\n' ∧ c ≠ '\r' ∧ c ≠ '/' := by
  intro c hc
  rcases printInt_chars z c hc with h | rfl
  · exact ⟨isDigit_ne h _ (by decide), isDigit_ne h _ (by decide), isDigit_ne h _ (by decide)⟩
  · decide

theorem printNat_plain (k : ℕ) : ∀ c ∈ printNat k, c ≠ '\n' ∧ c ≠ '\r' ∧ c ≠ '/' := by
  intro c hc
  have h := printNat_digits k c hc
  exact ⟨isDigit_ne h _ (by decide), isDigit_ne h _ (by decide), isDigit_ne h _ (by decide)⟩

theorem printQ_plain (q : ℚ) : ∀ c ∈ printQ q, c ≠ '\n' ∧ c ≠ '\r' := by
  intro c hc
  unfold printQ at hc
  rw [List.mem_append] at hc
  rcases hc with hc | hc
  · exact ⟨(printInt_plain _ c hc).1, (printInt_plain _ c hc).2.1⟩
  · split at hc
    · cases hc
    · rcases List.mem_cons.1 hc with rfl | hc
      · decide
      · exact ⟨(printNat_plain _ c hc).1, (printNat_plain _ c hc).2.1⟩

theorem slash_printQ (q : ℚ) : '/' ∈ printQ q ↔ q.den ≠ 1 := by
  unfold printQ
  rw [List.mem_append]
  constructor
  · rintro (h | h)
    · exact absurd rfl (printInt_plain _ _ h).2.2
    · intro h1
      rw [if_pos h1] at h
      cases h
  · intro h
    right
    rw [if_neg h]
    exact List.mem_cons_self

theorem slash_row (qs : List ℚ) (s : List Char) : slash (qs.flatMap (fun q => ' ' :: printQ q) ++ '\n' :: s) = some (decide (∃ q ∈ qs, q.den ≠ 1)) := by
  rw [slash_append]
  · simp only [List.mem_flatMap, List.mem_cons, slash_printQ, Option.some.injEq, decide_eq_decide]
    constructor
    · rintro ⟨q, hq, h | h⟩
      · exact absurd h (by decide)
      · exact ⟨q, hq, h⟩
    · rintro ⟨q, hq, h⟩
      exact ⟨q, hq, Or.inr h⟩
  · intro c hc
    rw [List.mem_flatMap] at hc
    obtain ⟨q, -, hc⟩ := hc
    rcases List.mem_cons.1 hc with rfl | hc
    · decide
    · exact printQ_plain q c hc

theorem printQ_zero : printQ 0 = ['0'] := by decide +kernel

theorem printQ_one : printQ 1 = ['1'] := by decide +kernel

/-- One direction: nothing is written. -/
theorem oneRow_zero (qs : List ℚ) : (oneRow ('\n' :: printRow (0 :: qs)) : Outcome n) = .done none := by
  have e : '\n' :: printRow (0 :: qs) = '\n' :: ' ' :: '0' :: (qs.flatMap (fun q => ' ' :: printQ q) ++ ['\n']) := by
    unfold printRow
    rw [List.flatMap_cons, printQ_zero]
    rfl
  rw [e]
  unfold oneRow
  simp only
  rw [skipBlank_space _ _ _ (by decide), if_neg (by decide), skipBlank_space _ _ _ (by decide), if_pos rfl]

/-- One vertex: 1 is written if it is integer, otherwise 0. -/
theorem oneRow_one (qs : List ℚ) : (oneRow ('\n' :: printRow (1 :: qs)) : Outcome n) = .done (some (if ∃ q ∈ qs, q.den ≠ 1 then 0 else 1)) := by
  have e : '\n' :: printRow (1 :: qs) = '\n' :: ' ' :: '1' :: (qs.flatMap (fun q => ' ' :: printQ q) ++ ['\n']) := by
    unfold printRow
    rw [List.flatMap_cons, printQ_one]
    rfl
  rw [e]
  unfold oneRow
  simp only
  rw [skipBlank_space _ _ _ (by decide), if_neg (by decide), skipBlank_space _ _ _ (by decide), if_neg (by decide), skipBlank_other _ _ (by decide)]
  simp only
  have h1 : slash ('1' :: (qs.flatMap (fun q => ' ' :: printQ q) ++ ['\n'])) = some (decide (∃ q ∈ qs, q.den ≠ 1)) := by
    rw [slash, if_neg (by decide), slash_row]
    simp
  rw [h1]
  by_cases h : ∃ q ∈ qs, q.den ≠ 1
  · rw [if_pos h, decide_eq_true h]
  · rw [if_neg h, decide_eq_false h]

/-! ## The vertices -/

theorem readVertices_none (rows : List (List ℚ)) : readVertices rows = none ↔ ∃ row ∈ rows, row.head? = some 0 := by
  induction rows with
  | nil => simp [readVertices]
  | cons row rows ih =>
    rw [readVertices]
    by_cases h : row.head? = some 0
    · rw [if_pos h]
      exact ⟨fun _ => ⟨row, List.mem_cons_self, h⟩, fun _ => rfl⟩
    · rw [if_neg h, Option.map_eq_none_iff, ih]
      simp [h]

theorem readVertices_some (rows : List (List ℚ)) (h : ∀ row ∈ rows, row.head? ≠ some 0) : readVertices rows = some (rows.map vertexEntries) := by
  induction rows with
  | nil => rfl
  | cons row rows ih =>
    rw [readVertices, if_neg (h row List.mem_cons_self), ih fun r hr => h r (List.mem_cons_of_mem _ hr)]
    rfl

theorem point_vertexEntries (q0 : ℚ) (qs : List ℚ) (hl : qs.length = n) : (point (vertexEntries (q0 :: qs)) : Fin n → ℚ) = rowPoint (q0 :: qs) := by
  funext k
  have hk : (k : ℕ) < qs.length := by rw [hl]; exact k.2
  show Latte.RatVec.val ((qs.map fun q => (q.num * (q0.den : ℤ), (q.den : ℤ) * q0.num)).getD k (0, 1)) = _
  rw [List.getD_eq_getElem _ _ (by simpa using hk), List.getElem_map]
  show _ = (q0 :: qs).getD (k + 1) 0 / (q0 :: qs).getD 0 0
  rw [List.getD_cons_succ, List.getD_cons_zero, List.getD_eq_getElem _ _ hk]
  generalize qs[(k : ℕ)] = q
  unfold Latte.RatVec.val
  simp only
  conv_rhs => rw [← Rat.num_div_den q, ← Rat.num_div_den q0]
  push_cast
  have := q.den_nz
  have := q0.den_nz
  by_cases h : q0.num = 0
  · simp [h]
  · field_simp

theorem posDen_vertexEntries (q0 : ℚ) (qs : List ℚ) (h0 : 0 < q0) : Latte.RatVec.PosDen (vertexEntries (q0 :: qs)) := by
  intro x hx
  obtain ⟨q, -, rfl⟩ := List.mem_map.1 hx
  have := Rat.num_pos.2 h0
  have := q.den_pos
  positivity

end Verif.CddV
