import Verif.Topcom.Props

/-!
# C102: prescribed heights for the triangulation (hilbert-from-rays)

`sscan_comma_separated_list`, `height_vector_from_pull_list` and `read_4ti2_vector` in `code/latte/normalize/normalize.cpp`, and the check of the length in `normalize_main`.
-/

namespace Verif.Hilbert.Heights

open Verif.Files Latte.Decimal Verif.Topcom

/-- How reading ends: with a value; with a message and status 1 (or NTL's error exit, or `abort()`); in another way: with a variable that has no value, or with a list that ends with the value (0, or the largest
or smallest `int`) that a failed `>>` leaves. -/
inductive Out (α : Type) where
  | ok (a : α)
  | exit
  | unspecified
  | fuel
  deriving DecidableEq

/-! ### The model -/

/-- `sscan_comma_separated_list`, lines 495–514.  `>> c` skips white space. -/
def scanList : ℕ → List Char → List ℤ → Out (List ℤ)
  | 0, _, _ => .fuel
  | f + 1, s, acc =>
    match readInt s with
    | none => .unspecified
    | some (a, []) => .ok (acc ++ [a])
    | some (a, c :: r) =>
      match (c :: r).dropWhile isSpace with
      | [] => .unspecified
      | d :: r' => if d = ',' then scanList f r' (acc ++ [a]) else .exit

/-- The loop in `height_vector_from_pull_list`, lines 528–537, with the heights so far and the next height. -/
def heightLoop (numRays : ℕ) : List ℤ → (ℕ → ℤ) → ℤ → Out (List ℤ)
  | [], res, _ => .ok ((List.range numRays).map res)
  | index :: l, res, height =>
    if index ≤ 0 ∨ index > numRays then .exit
    else heightLoop numRays l (fun i => if (i : ℤ) = index - 1 then height else res i) (height * 1000)

/-- `height_vector_from_pull_list`, lines 516–539.  `SetLength` of NTL makes entries 0. -/
def heightVector (numRays : ℕ) (l : List ℤ) : Out (List ℤ) := heightLoop numRays l (fun _ => 0) 1

/-- `--triangulation-pull-rays=` with a text: lines 634–638 and 734–746; the lengths agree. -/
def pullRays (numRays : ℕ) (text : List Char) : Out (List ℤ) :=
  match scanList (text.length + 1) text [] with
  | .ok l => heightVector numRays l
  | .exit => .exit
  | .unspecified => .unspecified
  | .fuel => .fuel

/-- The loop in `read_4ti2_vector`, lines 488–491: `>>` of NTL (no plus sign), then the stream must be good, so there must be a character left. -/
def entries : ℕ → List Char → Out (List ℤ × List Char)
  | 0, s => .ok ([], s)
  | k + 1, s =>
    if (s.dropWhile isSpace).head? = some '+' then .exit
    else
      match scanInt s with
      | none => .exit
      | some (_, []) => .exit
      | some (z, c :: r) =>
        match entries k (c :: r) with
        | .ok (l, r') => .ok (z :: l, r')
        | .exit => .exit
        | .unspecified => .unspecified
        | .fuel => .fuel

/-- `read_4ti2_vector`, lines 463–493, for a file that can be opened.  A negative dimension ends the program in `SetLength`. -/
def readVector (s : List Char) : Out (List ℤ) :=
  match readInt s with
  | none => .exit
  | some (num, r) =>
    match readInt r with
    | none => .exit
    | some (_, []) => .exit
    | some (dim, c :: r') =>
      if num ≠ 1 then .exit
      else if dim < 0 then .exit
      else
        match entries dim.toNat (c :: r') with
        | .ok (l, _) => .ok l
        | .exit => .exit
        | .unspecified => .unspecified
        | .fuel => .fuel

/-- `--triangulation-height-vector=` with a file: lines 628–633 and 740–746. -/
def fileHeights (numRays : ℕ) (s : List Char) : Out (List ℤ) :=
  match readVector s with
  | .ok l => if l.length = numRays then .ok l else .exit
  | .exit => .exit
  | .unspecified => .unspecified
  | .fuel => .fuel

/-! ### Lists of rays to be pulled -/

/-- `3,1,4` -/
def listText (L : List ℤ) : List Char := commas (L.map printInt)

theorem scanList_text (L : List ℤ) : ∀ (f : ℕ) (acc : List ℤ), L ≠ [] → L.length ≤ f → (∀ z ∈ L, IsInt z) → scanList f (listText L) acc = .ok (acc ++ L) := by
  induction L with
  | nil => intro f acc h; exact absurd rfl h
  | cons z L ih =>
    intro f acc _ hf hL
    cases f with
    | zero => simp at hf
    | succ f =>
      have hz := hL z List.mem_cons_self
      cases L with
      | nil =>
        have hr := readInt_print z hz [] [] (by simp) (by simp)
        rw [List.nil_append, List.append_nil] at hr
        simp only [listText, List.map_cons, List.map_nil, commas, scanList, hr]
      | cons y L =>
        have hr := readInt_print z hz [] (',' :: listText (y :: L)) (by simp) (fun c hc => by simp at hc; subst hc; decide)
        rw [List.nil_append] at hr
        have e : listText (z :: y :: L) = printInt z ++ ',' :: listText (y :: L) := rfl
        rw [e, scanList, hr]
        dsimp only
        rw [List.dropWhile_cons_of_neg (by decide)]
        dsimp only
        rw [if_pos rfl, ih f _ (by simp) (by simpa using hf) (fun z hz => hL z (List.mem_cons_of_mem _ hz)), List.append_assoc]
        rfl

theorem printInt_pos_length (z : ℤ) : 0 < (printInt z).length := by
  have hr := scanInt_print z [] [] (by simp) (by simp)
  rw [List.nil_append, List.append_nil] at hr
  have := scanInt_length hr
  simpa using this

theorem listText_length (L : List ℤ) : L.length ≤ (listText L).length := by
  induction L with
  | nil => simp
  | cons z L ih =>
    have := printInt_pos_length z
    cases L with
    | nil => simp only [listText, List.map_cons, List.map_nil, commas, List.length_cons, List.length_nil]; omega
    | cons y L =>
      simp only [listText, List.map_cons, commas, List.length_append, List.length_cons] at ih ⊢
      omega

/-- The position (from the end of the list: the last one) of the rays: the height of ray `i` (from 0) is a power of 1000 for the last occurrence of `i + 1`, otherwise what it was before. -/
theorem heightLoop_spec (n : ℕ) (L : List ℤ) : ∀ (res : ℕ → ℤ) (h : ℤ), (∀ z ∈ L, 1 ≤ z ∧ z ≤ n) → ∃ res' : ℕ → ℤ, heightLoop n L res h = .ok ((List.range n).map res') ∧
    (∀ i : ℕ, ((i : ℤ) + 1 ∉ L → res' i = res i)) ∧ ∀ (i t : ℕ), L[t]? = some ((i : ℤ) + 1) → (∀ u, t < u → L[u]? ≠ some ((i : ℤ) + 1)) → res' i = h * 1000 ^ t := by
  induction L with
  | nil => intro res h _; exact ⟨res, rfl, fun i _ => rfl, by simp⟩
  | cons z L ih =>
    intro res h hL
    obtain ⟨h1, h2⟩ := hL z List.mem_cons_self
    obtain ⟨res', e, k1, k2⟩ := ih (fun i => if (i : ℤ) = z - 1 then h else res i) (h * 1000) fun z hz => hL z (List.mem_cons_of_mem _ hz)
    refine ⟨res', ?_, fun i hi => ?_, fun i t ht hu => ?_⟩
    · rw [heightLoop, if_neg (by omega), e]
    · rw [List.mem_cons, not_or] at hi
      rw [k1 i hi.2, if_neg (by omega)]
    · cases t with
      | zero =>
        have hz : z = (i : ℤ) + 1 := by simpa using ht
        have hn : (i : ℤ) + 1 ∉ L := fun hm => by
          obtain ⟨u, hu'⟩ := List.mem_iff_getElem?.1 hm
          exact hu (u + 1) (Nat.succ_pos _) (by simpa using hu')
        rw [k1 i hn, if_pos (by omega), pow_zero, mul_one]
      | succ t =>
        rw [k2 i t (by simpa using ht) fun u hu' => by simpa using hu (u + 1) (by omega), pow_succ]; ring

/-- **C102.** For every nonempty list of different numbers of rays, written with commas, the heights are: 1 for the first ray of the list, 1000 times as much for each ray than for the one before, and 0 for the rays
that are not in the list. -/
theorem c102_pull (n : ℕ) (L : List ℤ) (hL : L ≠ []) (hn : L.Nodup) (hr : ∀ z ∈ L, 1 ≤ z ∧ z ≤ n) (hint : (n : ℤ) < 2 ^ 31) : ∃ h : List ℤ, pullRays n (listText L) = .ok h ∧ h.length = n ∧
    (∀ (i t : ℕ), L[t]? = some ((i : ℤ) + 1) → h[i]? = some (1000 ^ t)) ∧ ∀ i < n, (i : ℤ) + 1 ∉ L → h[i]? = some 0 := by
  obtain ⟨res, e, h1, h2⟩ := heightLoop_spec n L (fun _ => 0) 1 hr
  refine ⟨(List.range n).map res, ?_, by simp, fun i t ht => ?_, fun i hi hm => ?_⟩
  · rw [pullRays, scanList_text L _ _ hL ((listText_length L).trans (Nat.le_succ _)) fun z hz => ⟨by have := hr z hz; omega, by have := hr z hz; omega⟩]
    exact e
  · have hi : i < n := by have := (hr _ (List.mem_of_getElem? ht)).2; omega
    have := h2 i t ht fun u hu hc => by
      have hlt : t < L.length := (List.getElem?_eq_some_iff.1 ht).1
      have hlu : u < L.length := (List.getElem?_eq_some_iff.1 hc).1
      rw [List.getElem?_eq_getElem hlt] at ht
      rw [List.getElem?_eq_getElem hlu] at hc
      have := (hn.getElem_inj_iff (hi := hlt) (hj := hlu)).1 (by rw [Option.some.inj ht, Option.some.inj hc])
      omega
    simp [hi, this]
  · simp [hi, h1 i hm]

/-- **C102.** A list with a number that is not one of a ray ends the program. -/
theorem c102_range (n : ℕ) (L : List ℤ) (hint : ∀ z ∈ L, IsInt z) (h : ∃ z ∈ L, z < 1 ∨ (n : ℤ) < z) : pullRays n (listText L) = .exit := by
  have main : ∀ (L : List ℤ), (∃ z ∈ L, z < 1 ∨ (n : ℤ) < z) → ∀ res h, heightLoop n L res h = .exit := by
    intro L
    induction L with
    | nil => rintro ⟨z, hz, -⟩; cases hz
    | cons y L ih =>
      rintro ⟨z, hz, hzr⟩ res h
      rw [heightLoop]
      split
      · rfl
      · rename_i hy
        rcases List.mem_cons.1 hz with rfl | hz
        · omega
        · exact ih ⟨z, hz, hzr⟩ _ _
  rw [pullRays, scanList_text L _ _ (by rintro rfl; obtain ⟨z, hz, -⟩ := h; cases hz) ((listText_length L).trans (Nat.le_succ _)) hint]
  exact main L h _ _

/-! ### Vectors from files -/

/-- Entries with a blank in front. -/
def spaced : List ℤ → List Char
  | [] => []
  | z :: l => ' ' :: (printInt z ++ spaced l)

/-- `1 3`, then the entries, then the rest of the file. -/
def vectorText (v : List ℤ) (rest : List Char) : List Char := printInt 1 ++ ' ' :: (printInt v.length ++ '\n' :: (spaced v ++ rest))

theorem spaced_head (v : List ℤ) (rest : List Char) (hr : ∀ c, rest.head? = some c → isDigit c = false) : ∀ c, (spaced v ++ rest).head? = some c → isDigit c = false := by
  cases v with
  | nil => exact hr
  | cons z v => intro c hc; simp [spaced] at hc; subst hc; decide

theorem printInt_not_plus (z : ℤ) (r : List Char) : (printInt z ++ r).head? ≠ some '+' ∧ ∃ c cs, printInt z ++ r = c :: cs ∧ isSpace c = false := by
  have hd : ∀ (n : ℕ), ∃ c cs, printNat n = c :: cs ∧ isDigit c = true := fun n => by
    cases h : printNat n with
    | nil => exact absurd h (printNat_ne_nil n)
    | cons c cs => exact ⟨c, cs, rfl, printNat_digits n c (by rw [h]; exact List.mem_cons_self)⟩
  by_cases hz : z < 0
  · have e : printInt z = '-' :: printNat z.natAbs := by simp [printInt, hz]
    rw [e]
    exact ⟨by simp, '-', _, rfl, by decide⟩
  · have e : printInt z = printNat z.natAbs := by simp [printInt, hz]
    obtain ⟨c, cs, h1, h2⟩ := hd z.natAbs
    rw [e, h1]
    refine ⟨by simpa using isDigit_ne h2 '+' (by decide), c, _, rfl, ?_⟩
    by_contra hs
    have : ∀ c, isDigit c = true → isSpace c = false := fun c hc => by
      simp only [isDigit, Bool.and_eq_true, decide_eq_true_eq] at hc
      simp only [isSpace, Bool.or_eq_false_iff, beq_eq_false_iff_ne, Bool.and_eq_false_iff, decide_eq_false_iff_not]
      have h48 : 48 ≤ c.toNat := UInt32.le_iff_toNat_le.1 hc.1
      refine ⟨fun e => ?_, .inr (by omega)⟩
      rw [e] at hc
      exact absurd hc.1 (by decide)
    exact hs (this c h2)

theorem entries_text (v : List ℤ) : ∀ (ws : List Char) (rest : List Char), (∀ c ∈ ws, isSpace c = true) → (∀ c, rest.head? = some c → isDigit c = false) → rest ≠ [] → 
    ∃ r, entries v.length (ws ++ (spaced v ++ rest)) = .ok (v, r) := by
  induction v with
  | nil => intro ws rest _ _ _; exact ⟨_, rfl⟩
  | cons z v ih =>
    intro ws rest hws hr hne
    have e : ws ++ (spaced (z :: v) ++ rest) = (ws ++ [' ']) ++ (printInt z ++ (spaced v ++ rest)) := by simp [spaced]
    have hws' : ∀ c ∈ ws ++ [' '], isSpace c = true := fun c hc => by
      rcases List.mem_append.1 hc with h | h
      · exact hws c h
      · rw [List.mem_singleton.1 h]; decide
    have hs := scanInt_print z (ws ++ [' ']) (spaced v ++ rest) hws' (spaced_head v rest hr)
    obtain ⟨r, hrr⟩ := ih [] rest (by simp) hr hne
    rw [List.nil_append] at hrr
    have hp : ((ws ++ [' ']) ++ (printInt z ++ (spaced v ++ rest))).dropWhile isSpace = printInt z ++ (spaced v ++ rest) := by
      obtain ⟨-, c, cs, h1, h2⟩ := printInt_not_plus z (spaced v ++ rest)
      rw [h1, List.dropWhile_append_of_pos hws', List.dropWhile_cons_of_neg (by simp [h2])]
    refine ⟨r, ?_⟩
    rw [e, List.length_cons, entries, hp, if_neg (printInt_not_plus z _).1, hs]
    cases hv : spaced v ++ rest with
    | nil => exact absurd (List.append_eq_nil_iff.1 hv).2 hne
    | cons c cs =>
      rw [hv] at hrr
      dsimp only
      rw [hrr]

theorem entries_end (v : List ℤ) (hv : v ≠ []) : ∀ (ws : List Char), (∀ c ∈ ws, isSpace c = true) → entries v.length (ws ++ spaced v) = .exit := by
  induction v with
  | nil => exact absurd rfl hv
  | cons z v ih =>
    intro ws hws
    have e : ws ++ spaced (z :: v) = (ws ++ [' ']) ++ (printInt z ++ spaced v) := by simp [spaced]
    have hws' : ∀ c ∈ ws ++ [' '], isSpace c = true := fun c hc => by
      rcases List.mem_append.1 hc with h | h
      · exact hws c h
      · rw [List.mem_singleton.1 h]; decide
    have hs := scanInt_print z (ws ++ [' ']) (spaced v) hws' (by have := spaced_head v [] (by simp); rwa [List.append_nil] at this)
    rw [e, List.length_cons, entries]
    split
    · rfl
    rw [hs]
    cases v with
    | nil => rfl
    | cons y v =>
      have := ih (by simp) [] (by simp)
      rw [List.nil_append] at this
      simp only [spaced] at this ⊢
      rw [this]

theorem readVector_header (v : List ℤ) (rest : List Char) (hv : (v.length : ℤ) < 2 ^ 31) : readVector (vectorText v rest) =
    match entries v.length ('\n' :: (spaced v ++ rest)) with
    | .ok (l, _) => .ok l
    | .exit => .exit
    | .unspecified => .unspecified
    | .fuel => .fuel := by
  have h1 := readInt_print 1 ⟨by norm_num, by norm_num⟩ [] (' ' :: (printInt v.length ++ '\n' :: (spaced v ++ rest))) (by simp) (fun c hc => by simp at hc; subst hc; decide)
  have h2 := readInt_print v.length ⟨by have : (0 : ℤ) ≤ v.length := Int.natCast_nonneg _; omega, hv⟩ [' '] ('\n' :: (spaced v ++ rest)) (by simp; decide) (fun c hc => by simp at hc; subst hc; decide)
  rw [List.nil_append] at h1
  rw [List.singleton_append] at h2
  rw [readVector, vectorText, h1]
  dsimp only
  rw [h2]
  dsimp only
  rw [if_neg (by simp), if_neg (by simp), Int.toNat_natCast]

/-- **C102.** A vector with as many entries as there are rays, in a file in the format of 4ti2 that ends with a character behind the last number (as a line feed), is read as it is. -/
theorem c102_file (n : ℕ) (v : List ℤ) (rest : List Char) (hn : v.length = n) (hv : (n : ℤ) < 2 ^ 31) (hr : ∀ c, rest.head? = some c → isDigit c = false) (hne : rest ≠ []) :
    fileHeights n (vectorText v rest) = .ok v := by
  obtain ⟨r, h⟩ := entries_text v ['\n'] rest (by simp; decide) hr hne
  rw [List.singleton_append] at h
  rw [fileHeights, readVector_header v rest (by rw [hn]; exact hv), h]
  simp [hn]

/-- **C102.** A vector of another length ends the program. -/
theorem c102_length (n : ℕ) (v : List ℤ) (rest : List Char) (hn : v.length ≠ n) (hv : (v.length : ℤ) < 2 ^ 31) (hr : ∀ c, rest.head? = some c → isDigit c = false) (hne : rest ≠ []) :
    fileHeights n (vectorText v rest) = .exit := by
  obtain ⟨r, h⟩ := entries_text v ['\n'] rest (by simp; decide) hr hne
  rw [List.singleton_append] at h
  rw [fileHeights, readVector_header v rest hv, h]
  simp [hn]

/-- **C102, what fails.** If the file ends with the last number, without a line feed, the program ends with status 1. -/
theorem c102_file_violation (n : ℕ) (v : List ℤ) (h0 : v ≠ []) (hv : (v.length : ℤ) < 2 ^ 31) : fileHeights n (vectorText v []) = .exit := by
  have h := entries_end v h0 ['\n'] (by simp; decide)
  rw [List.singleton_append] at h
  rw [fileHeights, readVector_header v [] hv, List.append_nil, h]

/-- **C102, what fails.** If the list of rays to be pulled is empty, or ends with a comma, the program goes on with an index without a value. -/
theorem c102_empty_violation (n : ℕ) : pullRays n [] = .unspecified := by
  simp [pullRays, scanList, readInt, scanInt]

/-- Pulling the rays 3 and 1 of four. -/
theorem pull_example : pullRays 4 "3,1".toList = .ok [1000, 0, 1, 0] := by decide +kernel

/-- A file with three heights. -/
theorem file_example : fileHeights 3 "1 3\n 5 0 -2\n".toList = .ok [5, 0, -2] := by decide +kernel

end Verif.Hilbert.Heights
