import Verif.Files.MatrixProps
import Mathlib.Algebra.GCDMonoid.Nat
import Mathlib.Data.Rat.Lemmas
import Mathlib.RingTheory.Coprime.Lemmas
import Mathlib.Tactic.FieldSimp
import Mathlib.Tactic.Positivity

/-!
# C87: the converter from cdd format to LattE format

Model of `convertCDD_ine_to_latte.cpp`, on the characters of the files.
-/

namespace Verif.Files

open Latte.Decimal Latte.Rational

/-! ## Model -/

/-- The word `begin`. -/
def kwBegin : List Char := ['b', 'e', 'g', 'i', 'n']

/-- `while (getline(input, line)) if (line == "begin") break;`, convertCDD_ine_to_latte.cpp:35–37: the rest of the file after the first line `begin`; `none` if there is no
such line (then nothing can be read and the sizes are not initialized).  The first argument is the line read so far, reversed. -/
def findBegin : List Char → List Char → Option (List Char)
  | acc, [] => if acc.reverse = kwBegin then some [] else none
  | acc, c :: s => if c = '\n' then (if acc.reverse = kwBegin then some s else findBegin [] s) else findBegin (c :: acc) s

/-- `input >> numRows`, of type `long` (64 bit), convertCDD_ine_to_latte.cpp:40. -/
def readLong (s : List Char) : Option (ℤ × List Char) :=
  (scanInt s).bind fun p => if -2 ^ 63 ≤ p.1 ∧ p.1 < 2 ^ 63 then some p else none

/-- `input.ignore(250, '\n')`, convertCDD_ine_to_latte.cpp:41. -/
def ignoreLine : ℕ → List Char → List Char
  | 0, s => s
  | _ + 1, [] => []
  | k + 1, c :: s => if c = '\n' then s else ignoreLine k s

/-- `input >> temp` for a string, convertCDD_ine_to_latte.cpp:51. -/
def readWord (s : List Char) : Option (List Char × List Char) :=
  let s' := s.dropWhile isSpace
  let w := s'.takeWhile fun c => !isSpace c
  if w = [] then none else some (w, s'.dropWhile fun c => !isSpace c)

/-- The numbers of a row, convertCDD_ine_to_latte.cpp:48–53. -/
def readFractions : ℕ → List Char → Option (List RatN × List Char)
  | 0, s => some ([], s)
  | k + 1, s => (readWord s).bind fun p => (ofString p.1).bind fun r => (readFractions k p.2).map fun q => (r :: q.1, q.2)

/-- `lcmDenom`, convertCDD_ine_to_latte.cpp:47, 54. -/
def lcmDenom (l : List RatN) : ℤ := l.foldl (fun a r => (r.den * a) / (Int.gcd a r.den : ℤ)) 1

/-- The line written, convertCDD_ine_to_latte.cpp:56–58. -/
def convertRow (l : List RatN) : List Char := l.flatMap (fun r => print (mulZ r (lcmDenom l)) ++ [' ']) ++ ['\n']

/-- The loop over the rows, convertCDD_ine_to_latte.cpp:45–60. -/
def convertRows : ℕ → ℕ → List Char → Option (List Char)
  | 0, _, _ => some []
  | m + 1, d, s => (readFractions d s).bind fun p => (convertRows m d p.2).map fun out => convertRow p.1 ++ out

/-- `main`, convertCDD_ine_to_latte.cpp:19–65: from the text of the input file to that of the output file; `none` if the input does not have the right form. -/
def convertIne (s : List Char) : Option (List Char) :=
  (findBegin [] s).bind fun s1 => (readLong s1).bind fun (m, s2) => (readLong s2).bind fun (d, s3) =>
    if d < 0 then none else
    (convertRows m.toNat d.toNat (ignoreLine 250 s3)).map fun out => printInt m ++ [' '] ++ printInt d ++ ['\n'] ++ out

/-! ## Specification -/

/-- A file in cdd format: lines before `begin`, what follows the sizes in their line, the rows (every number with the white space after it), and the rest. -/
structure IneFile where
  preamble : List (List Char)
  dim : ℕ
  kind : List Char
  rows : List (List (List Char × List Char))
  after : List Char

/-- The text of the file. -/
def IneFile.text (F : IneFile) : List Char :=
  F.preamble.flatMap (fun l => l ++ ['\n']) ++ (kwBegin ++ ['\n'] ++ (printInt (F.rows.length : ℤ) ++ ([' '] ++ (printInt (F.dim : ℤ) ++ (F.kind ++ ['\n'] ++
    (F.rows.flatMap (fun row => row.flatMap fun p => p.1 ++ p.2) ++ F.after))))))

/-- The text has the form it should have: no earlier line `begin`; after the sizes there is at most the kind of numbers, in the same line; numbers are separated. -/
structure IneFile.Ok (F : IneFile) : Prop where
  preamble : ∀ l ∈ F.preamble, l ≠ kwBegin ∧ '\n' ∉ l
  kind : '\n' ∉ F.kind ∧ F.kind.length < 250 ∧ ∀ c, F.kind.head? = some c → isDigit c = false
  width : ∀ row ∈ F.rows, row.length = F.dim
  words : ∀ row ∈ F.rows, ∀ p ∈ row, p.1 ≠ [] ∧ (∀ c ∈ p.1, isSpace c = false) ∧ p.2 ≠ [] ∧ ∀ c ∈ p.2, isSpace c = true
  size : F.rows.length < 2 ^ 31 ∧ F.dim < 2 ^ 31

/-- The words of the file denote these numbers: `n` or `n/d` in decimal notation with `d ≠ 0`. -/
def Denotes (w : List Char) (q : ℚ) : Prop :=
  (∃ n : ℤ, w = printInt n ∧ q = n) ∨ ∃ n d : ℤ, d ≠ 0 ∧ w = printInt n ++ '/' :: printInt d ∧ q = n / d

/-- The rows of the file denote these rows of numbers. -/
def IneFile.Matrix (F : IneFile) (rows : List (List ℚ)) : Prop :=
  List.Forall₂ (fun row qs => List.Forall₂ (fun p q => Denotes p.1 q) row qs) F.rows rows

/-! ## Proofs -/

theorem slash_not_printInt (n : ℤ) : '/' ∉ printInt n := by
  obtain ⟨c, cs, hz, hc, hcs⟩ := printInt_cons n
  rw [hz]
  intro h
  rcases List.mem_cons.1 h with h | h
  · subst h
    rcases hc with hc | hc
    · exact absurd hc (by decide)
    · exact absurd hc (by decide)
  · exact absurd (hcs _ h) (by decide)

theorem denotes_ofString (w : List Char) (q : ℚ) (h : Denotes w q) : ∃ r, ofString w = some r ∧ Canonical r ∧ r.val = q := by
  rcases h with ⟨n, rfl, rfl⟩ | ⟨n, d, hd, rfl, rfl⟩
  · refine ⟨⟨n, 1⟩, ?_, ⟨by norm_num, by simp⟩, by simp [RatN.val]⟩
    have hs := slash_not_printInt n
    have : (printInt n).dropWhile (fun c => decide (c ≠ '/')) = [] := by
      have := (takeWhile_append_of_all (p := fun c => decide (c ≠ '/')) (printInt n) [] (by
        intro c hc
        simp only [ne_eq, decide_not, Bool.not_eq_eq_eq_not, Bool.not_true, decide_eq_false_iff_not]
        rintro rfl
        exact hs hc) (by simp)).2
      simpa using this
    unfold ofString
    rw [this]
    dsimp only
    rw [parseInt_printInt]
    rfl
  · refine ⟨mk' n d, ?_, (mk'_spec n d hd).1, (mk'_spec n d hd).2⟩
    have hs := slash_not_printInt n
    have hall : ∀ c ∈ printInt n, (fun c => decide (c ≠ '/')) c = true := by
      intro c hc
      simp only [ne_eq, decide_not, Bool.not_eq_eq_eq_not, Bool.not_true, decide_eq_false_iff_not]
      rintro rfl
      exact hs hc
    have h1 := takeWhile_append_of_all (p := fun c => decide (c ≠ '/')) (printInt n) ('/' :: printInt d) hall (by
      intro c hc
      simp only [List.head?_cons, Option.some.injEq] at hc
      subst hc; decide)
    unfold ofString
    rw [h1.2, h1.1]
    dsimp only
    rw [parseInt_printInt, parseInt_printInt]
    rfl

theorem findBegin_line (l : List Char) (hl : '\n' ∉ l) (acc s : List Char) :
    findBegin acc (l ++ '\n' :: s) = if acc.reverse ++ l = kwBegin then some s else findBegin [] s := by
  induction l generalizing acc with
  | nil => rw [List.nil_append, findBegin, if_pos rfl, List.append_nil]
  | cons c l ih =>
    have hc : c ≠ '\n' := fun h => hl (h ▸ List.mem_cons_self)
    rw [List.cons_append, findBegin, if_neg hc, ih (fun h => hl (List.mem_cons_of_mem _ h))]
    rw [List.reverse_cons, List.append_assoc]; rfl

theorem findBegin_preamble (ls : List (List Char)) (h : ∀ l ∈ ls, l ≠ kwBegin ∧ '\n' ∉ l) (s : List Char) :
    findBegin [] (ls.flatMap (fun l => l ++ ['\n']) ++ (kwBegin ++ ['\n'] ++ s)) = some s := by
  induction ls with
  | nil =>
    rw [List.flatMap_nil, List.nil_append, List.append_assoc]
    show findBegin [] (kwBegin ++ '\n' :: s) = _
    rw [findBegin_line kwBegin (by decide)]
    rfl
  | cons l ls ih =>
    have hl := h l List.mem_cons_self
    rw [List.flatMap_cons, List.append_assoc, List.append_assoc]
    show findBegin [] (l ++ '\n' :: _) = _
    rw [findBegin_line l hl.2, List.reverse_nil, List.nil_append, if_neg hl.1]
    exact ih fun l hl => h l (List.mem_cons_of_mem _ hl)

theorem readLong_print (z : ℤ) (hz : IsInt z) (ws rest : List Char) (hws : ∀ c ∈ ws, isSpace c = true)
    (hrest : ∀ c, rest.head? = some c → isDigit c = false) : readLong (ws ++ (printInt z ++ rest)) = some (z, rest) := by
  unfold readLong
  rw [scanInt_print z ws rest hws hrest, Option.bind_some]
  unfold IsInt at hz
  exact if_pos ⟨by dsimp only; omega, by dsimp only; omega⟩

theorem ignoreLine_line (l : List Char) (hl : '\n' ∉ l) (k : ℕ) (hk : l.length < k) (s : List Char) : ignoreLine k (l ++ '\n' :: s) = s := by
  induction l generalizing k with
  | nil =>
    obtain ⟨k, rfl⟩ : ∃ j, k = j + 1 := ⟨k - 1, by simp at hk; omega⟩
    rw [List.nil_append, ignoreLine, if_pos rfl]
  | cons c l ih =>
    obtain ⟨k, rfl⟩ : ∃ j, k = j + 1 := ⟨k - 1, by simp at hk; omega⟩
    have hc : c ≠ '\n' := fun h => hl (h ▸ List.mem_cons_self)
    rw [List.cons_append, ignoreLine, if_neg hc, ih (fun h => hl (List.mem_cons_of_mem _ h)) k (by simp at hk; omega)]

theorem readWord_word (ws w sp s : List Char) (hws : ∀ c ∈ ws, isSpace c = true) (hw : w ≠ []) (hw2 : ∀ c ∈ w, isSpace c = false) (hsp : sp ≠ [])
    (hsp2 : ∀ c ∈ sp, isSpace c = true) : readWord (ws ++ (w ++ (sp ++ s))) = some (w, sp ++ s) := by
  obtain ⟨a, w', rfl⟩ := List.exists_cons_of_ne_nil hw
  obtain ⟨b, sp', rfl⟩ := List.exists_cons_of_ne_nil hsp
  have h1 := (takeWhile_append_of_all (p := isSpace) ws ((a :: w') ++ ((b :: sp') ++ s)) hws (by
    intro c hc
    simp only [List.cons_append, List.head?_cons, Option.some.injEq] at hc
    subst hc
    exact hw2 _ List.mem_cons_self)).2
  have h2 := takeWhile_append_of_all (p := fun c => !isSpace c) (a :: w') ((b :: sp') ++ s) (by
    intro c hc
    rw [hw2 c hc]; rfl) (by
    intro c hc
    simp only [List.cons_append, List.head?_cons, Option.some.injEq] at hc
    subst hc
    rw [hsp2 _ List.mem_cons_self]; rfl)
  unfold readWord
  simp only []
  rw [h1, h2.1, h2.2, if_neg hw]

theorem readFractions_row (row : List (List Char × List Char)) (qs : List ℚ)
    (hok : ∀ p ∈ row, p.1 ≠ [] ∧ (∀ c ∈ p.1, isSpace c = false) ∧ p.2 ≠ [] ∧ ∀ c ∈ p.2, isSpace c = true)
    (h : List.Forall₂ (fun p q => Denotes p.1 q) row qs) (s : List Char) : ∀ ws, (∀ c ∈ ws, isSpace c = true) → ∃ ws' rs, (∀ c ∈ ws', isSpace c = true) ∧
      readFractions row.length (ws ++ (row.flatMap (fun p => p.1 ++ p.2) ++ s)) = some (rs, ws' ++ s) ∧
      List.Forall₂ (fun r q => Canonical r ∧ r.val = q) rs qs := by
  induction h with
  | nil => intro ws hws; exact ⟨ws, [], hws, rfl, .nil⟩
  | cons hpq _ ih =>
    rename_i p q row qs _
    intro ws hws
    obtain ⟨h1, h2, h3, h4⟩ := hok p List.mem_cons_self
    obtain ⟨r, hr, hc, hv⟩ := denotes_ofString _ _ hpq
    obtain ⟨ws', rs, hws', hrun, hall⟩ := ih (fun p hp => hok p (List.mem_cons_of_mem _ hp)) p.2 h4
    refine ⟨ws', r :: rs, hws', ?_, .cons ⟨hc, hv⟩ hall⟩
    rw [List.flatMap_cons, List.append_assoc, List.append_assoc, List.length_cons, readFractions,
      readWord_word ws p.1 p.2 _ hws h1 h2 h3 h4, Option.bind_some]
    dsimp only
    rw [hr, Option.bind_some, hrun]
    rfl

theorem lcm_step (a d : ℤ) (ha : 0 < a) (hd : 0 < d) : d * a / (Int.gcd a d : ℤ) = (Nat.lcm a.toNat d.toNat : ℤ) := by
  obtain ⟨a, rfl⟩ := Int.eq_ofNat_of_zero_le ha.le
  obtain ⟨d, rfl⟩ := Int.eq_ofNat_of_zero_le hd.le
  rw [Int.toNat_natCast, Int.toNat_natCast, Int.gcd_natCast_natCast, Nat.lcm, mul_comm]
  norm_cast

theorem lcm_fold (l : List RatN) (hl : ∀ r ∈ l, Canonical r) (a : ℤ) (ha : 0 < a) :
    let b := l.foldl (fun a r => (r.den * a) / (Int.gcd a r.den : ℤ)) a
    0 < b ∧ a ∣ b ∧ (∀ r ∈ l, r.den ∣ b) ∧ ∀ c, a ∣ c → (∀ r ∈ l, r.den ∣ c) → b ∣ c := by
  induction l generalizing a with
  | nil => exact ⟨ha, dvd_rfl, by simp, fun c h _ => h⟩
  | cons r l ih =>
    have hr := (hl r List.mem_cons_self).1
    have hs := lcm_step a r.den ha hr
    have hpos : 0 < r.den * a / (Int.gcd a r.den : ℤ) := by
      rw [hs]
      exact_mod_cast Nat.lcm_pos (by omega) (by omega)
    have h1 : a ∣ r.den * a / (Int.gcd a r.den : ℤ) := by
      rw [hs]
      have := Nat.dvd_lcm_left a.toNat r.den.toNat
      have h2 : ((a.toNat : ℕ) : ℤ) ∣ ((Nat.lcm a.toNat r.den.toNat : ℕ) : ℤ) := by exact_mod_cast this
      rwa [Int.toNat_of_nonneg ha.le] at h2
    have h2 : r.den ∣ r.den * a / (Int.gcd a r.den : ℤ) := by
      rw [hs]
      have := Nat.dvd_lcm_right a.toNat r.den.toNat
      have h2 : ((r.den.toNat : ℕ) : ℤ) ∣ ((Nat.lcm a.toNat r.den.toNat : ℕ) : ℤ) := by exact_mod_cast this
      rwa [Int.toNat_of_nonneg hr.le] at h2
    obtain ⟨i1, i2, i3, i4⟩ := ih (fun r hr => hl r (List.mem_cons_of_mem _ hr)) _ hpos
    refine ⟨i1, h1.trans i2, ?_, fun c hc1 hc2 => i4 c ?_ fun r hr => hc2 r (List.mem_cons_of_mem _ hr)⟩
    · intro r' hr'
      rcases List.mem_cons.1 hr' with rfl | hr'
      · exact h2.trans i2
      · exact i3 r' hr'
    · rw [hs]
      have hd := hc2 r List.mem_cons_self
      have e : ((Nat.lcm a.toNat r.den.toNat : ℕ) : ℤ) = ((Int.lcm a r.den : ℕ) : ℤ) := by
        rw [Int.lcm]
        congr 2 <;> omega
      rw [e]
      exact Int.coe_lcm_dvd hc1 hd

/-- What is written for one row: the row times the least common denominator. -/
theorem convertRow_spec (rs : List RatN) (qs : List ℚ) (h : List.Forall₂ (fun r q => Canonical r ∧ r.val = q) rs qs) :
    0 < lcmDenom rs ∧ convertRow rs = writeRow (qs.map fun q => (lcmDenom rs : ℚ) * q) ∧
      (∀ q ∈ qs, ((lcmDenom rs : ℚ) * q).den = 1) ∧ ∀ c : ℤ, (∀ q ∈ qs, ((c : ℚ) * q).den = 1) → lcmDenom rs ∣ c := by
  have hcan : ∀ r ∈ rs, Canonical r ∧ r.val ∈ qs := by
    intro r hr
    clear * - h hr
    induction h with
    | nil => cases hr
    | cons hh _ ih =>
      rcases List.mem_cons.1 hr with rfl | hr
      · exact ⟨hh.1, hh.2 ▸ List.mem_cons_self⟩
      · exact ⟨(ih hr).1, List.mem_cons_of_mem _ (ih hr).2⟩
  have hval : qs = rs.map RatN.val := by
    clear * - h
    induction h with
    | nil => rfl
    | cons hh _ ih => rw [List.map_cons, hh.2, ih]
  obtain ⟨h1, -, h3, h4⟩ := lcm_fold rs (fun r hr => (hcan r hr).1) 1 one_pos
  have key : ∀ (r : RatN) (c : ℤ), Canonical r → (((c : ℚ) * r.val).den = 1 ↔ r.den ∣ c) := by
    intro r c hr
    have hd : (r.den : ℚ) ≠ 0 := by exact_mod_cast hr.1.ne'
    have hden : ((c : ℚ) * r.val).den = 1 ↔ ∃ z : ℤ, (z : ℚ) = (c : ℚ) * r.val := by
      constructor
      · intro hh; exact ⟨_, Rat.coe_int_num_of_den_eq_one hh⟩
      · rintro ⟨z, hz⟩; rw [← hz]; rfl
    rw [hden]
    constructor
    · rintro ⟨z, hz⟩
      unfold RatN.val at hz
      field_simp at hz
      have hz' : z * r.den = c * r.num := by exact_mod_cast hz
      have hdvd : r.den ∣ c * r.num := ⟨z, by rw [← hz']; ring⟩
      exact (Int.isCoprime_iff_gcd_eq_one.2 hr.2).symm.dvd_of_dvd_mul_right hdvd
    · rintro ⟨k, rfl⟩
      refine ⟨k * r.num, ?_⟩
      unfold RatN.val
      push_cast
      field_simp
  refine ⟨h1, ?_, ?_, ?_⟩
  · unfold convertRow writeRow
    rw [hval, List.map_map]
    congr 1
    rw [List.flatMap_map]
    refine List.flatMap_congr fun r hr => ?_
    congr 1
    obtain ⟨m1, m2⟩ := mulZ_spec (hcan r hr).1 (lcmDenom rs)
    obtain ⟨e1, e2⟩ := m1.eq_num_den
    unfold print printQ
    rw [e1, e2, m2, mul_comm]
    norm_cast
  · rw [hval]
    intro q hq
    obtain ⟨r, hr, rfl⟩ := List.mem_map.1 hq
    exact (key r _ (hcan r hr).1).2 (h3 r hr)
  · intro c hc
    exact h4 c (one_dvd c) fun r hr => (key r c (hcan r hr).1).1 (hc _ (hcan r hr).2)

/-- A row and its multiple by the least positive integer that makes it integral. -/
def Cleared (q q' : List ℚ) : Prop :=
  ∃ c : ℤ, 0 < c ∧ q' = q.map (fun x => (c : ℚ) * x) ∧ (∀ x ∈ q', x.den = 1) ∧ ∀ c' : ℤ, (∀ x ∈ q, ((c' : ℚ) * x).den = 1) → c ∣ c'

theorem convertRows_spec (d : ℕ) (frows : List (List (List Char × List Char))) (rows : List (List ℚ)) (hw : ∀ row ∈ frows, row.length = d)
    (hok : ∀ row ∈ frows, ∀ p ∈ row, p.1 ≠ [] ∧ (∀ c ∈ p.1, isSpace c = false) ∧ p.2 ≠ [] ∧ ∀ c ∈ p.2, isSpace c = true)
    (h : List.Forall₂ (fun row qs => List.Forall₂ (fun p q => Denotes p.1 q) row qs) frows rows) (s : List Char) :
    ∀ ws, (∀ c ∈ ws, isSpace c = true) → ∃ rows', List.Forall₂ Cleared rows rows' ∧
      convertRows frows.length d (ws ++ (frows.flatMap (fun row => row.flatMap fun p => p.1 ++ p.2) ++ s)) = some (rows'.flatMap writeRow) := by
  induction h with
  | nil => intro ws _; exact ⟨[], .nil, rfl⟩
  | cons hr _ ih =>
    rename_i row qs frows rows _
    intro ws hws
    obtain ⟨ws', rs, hws', hrun, hall⟩ := readFractions_row row qs (hok row List.mem_cons_self) hr
      (frows.flatMap (fun row => row.flatMap fun p => p.1 ++ p.2) ++ s) ws hws
    obtain ⟨rows', hC, hrun'⟩ := ih (fun r hr => hw r (List.mem_cons_of_mem _ hr)) (fun r hr => hok r (List.mem_cons_of_mem _ hr)) ws' hws'
    obtain ⟨c1, c2, c3, c4⟩ := convertRow_spec rs qs hall
    refine ⟨(qs.map fun q => (lcmDenom rs : ℚ) * q) :: rows', .cons ⟨_, c1, rfl, ?_, c4⟩ hC, ?_⟩
    · intro x hx
      obtain ⟨q, hq, rfl⟩ := List.mem_map.1 hx
      exact c3 q hq
    · rw [List.flatMap_cons, List.append_assoc, List.length_cons, convertRows]
      rw [hw row List.mem_cons_self] at hrun
      rw [hrun, Option.bind_some]
      dsimp only
      rw [hrun', Option.map_some, c2, List.flatMap_cons]

theorem printInt_head (z : ℤ) (rest : List Char) : ∀ c, (printInt z ++ rest).head? = some c → c ≠ ' ' ∧ c ≠ '\n' := by
  obtain ⟨c, cs, hz, hc, -⟩ := printInt_cons z
  intro x hx
  rw [hz] at hx
  simp only [List.cons_append, List.head?_cons, Option.some.injEq] at hx
  subst hx
  rcases hc with h | h
  · exact ⟨isDigit_ne h ' ' (by decide), isDigit_ne h '\n' (by decide)⟩
  · subst h; exact ⟨by decide, by decide⟩

/-- **C87.** For every file in cdd format, whatever is written before `begin` and after the last row: the program writes a file in LattE format with the same
number of rows and columns; row by row, it is the row of the input times the least positive integer that makes it integral; no row is marked as an equation. -/
theorem c87_rows (F : IneFile) (h : F.Ok) (rows : List (List ℚ)) (hm : F.Matrix rows) :
    ∃ out rows', convertIne F.text = some out ∧ out = writeLatteStyleMatrix ⟨F.dim, rows', ∅⟩ ∧ List.Forall₂ Cleared rows rows' := by
  obtain ⟨rows', hC, hrun⟩ := convertRows_spec F.dim F.rows rows h.width h.words hm F.after [] (by simp)
  refine ⟨_, rows', ?_, rfl, hC⟩
  have hlen : rows'.length = F.rows.length := by rw [← hC.length_eq, ← List.Forall₂.length_eq hm]
  unfold convertIne IneFile.text
  rw [findBegin_preamble F.preamble h.preamble, Option.bind_some]
  have h1 := readLong_print (F.rows.length : ℤ) (isInt_nat _ h.size.1) [] ([' '] ++ (printInt (F.dim : ℤ) ++ (F.kind ++ ['\n'] ++
    (F.rows.flatMap (fun row => row.flatMap fun p => p.1 ++ p.2) ++ F.after)))) (by simp) (by
      intro c hc
      simp only [List.cons_append, List.head?_cons, Option.some.injEq] at hc
      subst hc; decide)
  have h2 := readLong_print (F.dim : ℤ) (isInt_nat _ h.size.2) [' '] (F.kind ++ ['\n'] ++
    (F.rows.flatMap (fun row => row.flatMap fun p => p.1 ++ p.2) ++ F.after)) (by
      intro c hc
      rw [List.mem_singleton.1 hc]; decide) (by
      intro c hc
      cases hk : F.kind with
      | nil =>
        rw [hk] at hc
        simp only [List.nil_append, List.cons_append, List.head?_cons, Option.some.injEq] at hc
        subst hc; decide
      | cons a k =>
        rw [hk] at hc
        simp only [List.cons_append, List.head?_cons, Option.some.injEq] at hc
        subst hc
        exact h.kind.2.2 _ (by rw [hk]; rfl))
  rw [List.nil_append] at h1
  rw [h1, Option.bind_some]
  dsimp only
  rw [h2, Option.bind_some]
  dsimp only
  rw [if_neg (by omega), Int.toNat_natCast, Int.toNat_natCast]
  rw [show F.kind ++ ['\n'] ++ (F.rows.flatMap (fun row => row.flatMap fun p => p.1 ++ p.2) ++ F.after) =
    F.kind ++ '\n' :: (F.rows.flatMap (fun row => row.flatMap fun p => p.1 ++ p.2) ++ F.after) by rw [List.append_assoc]; rfl,
    ignoreLine_line F.kind h.kind.1 250 h.kind.2.1]
  rw [List.nil_append] at hrun
  rw [hrun, Option.map_some]
  congr 1
  unfold writeLatteStyleMatrix
  simp only [hlen, Finset.card_empty, lt_irrefl, if_false, List.append_nil, List.append_assoc]

theorem cleared_width (q q' : List ℚ) (h : Cleared q q') : q'.length = q.length := by
  obtain ⟨c, -, rfl, -⟩ := h
  rw [List.length_map]

/-- **C87, read back.** The LattE reader reads from the output the integral rows, and no equations. -/
theorem c87_read (F : IneFile) (h : F.Ok) (rows : List (List ℚ)) (hm : F.Matrix rows) :
    ∃ out rows', convertIne F.text = some out ∧ List.Forall₂ Cleared rows rows' ∧
      readLatteStyleMatrix out false false false = .ok ⟨F.rows.length, F.dim, false, rows'.map fun r => r.map fun q => (q.num, (q.den : ℤ)), ∅⟩ := by
  obtain ⟨out, rows', h1, h2, h3⟩ := c87_rows F h rows hm
  refine ⟨out, rows', h1, h3, ?_⟩
  have hlen : rows'.length = F.rows.length := by rw [← h3.length_eq, ← List.Forall₂.length_eq hm]
  have hwid : ∀ r ∈ rows', r.length = F.dim := by
    have hq : ∀ q ∈ rows, q.length = F.dim := by
      have hw := h.width
      have hm' : List.Forall₂ (fun row qs => List.Forall₂ (fun p q => Denotes p.1 q) row qs) F.rows rows := hm
      generalize F.rows = fr at hw hm'
      clear * - hw hm'
      induction hm' with
      | nil => intro q hq; cases hq
      | cons hr _ ih =>
        intro q hq
        rcases List.mem_cons.1 hq with rfl | hq
        · rw [← hr.length_eq]; exact hw _ List.mem_cons_self
        · exact ih (fun r hr => hw r (List.mem_cons_of_mem _ hr)) q hq
    clear * - hq h3
    induction h3 with
    | nil => intro r hr; cases hr
    | cons hc _ ih =>
      intro r hr
      rcases List.mem_cons.1 hr with rfl | hr
      · rw [cleared_width _ _ hc]; exact hq _ List.mem_cons_self
      · exact ih (fun q hqq => hq q (List.mem_cons_of_mem _ hqq)) r hr
  have := c35_write_read ⟨F.dim, rows', ∅⟩ hwid (by simp) (by rw [hlen]; exact h.size.1) h.size.2 false false
  rw [h2, this]
  simp [QMatrix.asRead, hlen]

/-- value of the row `(b, a)` at the point with coordinates `pt = (1, x)` -/
def rowAt (row : List ℚ) (pt : List ℚ) : ℚ := (List.zipWith (fun a x => a * x) row pt).sum

theorem rowAt_scale (c : ℚ) (row pt : List ℚ) : rowAt (row.map fun x => c * x) pt = c * rowAt row pt := by
  unfold rowAt
  induction row generalizing pt with
  | nil => simp
  | cons a row ih =>
    cases pt with
    | nil => simp
    | cons b pt =>
      simp only [List.map_cons, List.zipWith_cons_cons, List.sum_cons]
      rw [ih]; ring

/-- **C87: the inequalities mean the same.** A point meets all rows of the output exactly if it meets all rows of the input. -/
theorem c87_same_inequalities (rows rows' : List (List ℚ)) (h : List.Forall₂ Cleared rows rows') (pt : List ℚ) :
    (∀ r ∈ rows', 0 ≤ rowAt r pt) ↔ ∀ r ∈ rows, 0 ≤ rowAt r pt := by
  induction h with
  | nil => simp
  | cons hc _ ih =>
    obtain ⟨c, hc0, rfl, -⟩ := hc
    rw [List.forall_mem_cons, List.forall_mem_cons, ih, rowAt_scale]
    have : (0 : ℚ) < c := by exact_mod_cast hc0
    rw [mul_nonneg_iff_of_pos_left this]

/-- **C87 is violated by equations:** in cdd format they are listed in a line `linearity` before `begin`; what is written does not depend on the lines before `begin` at all. -/
theorem c87_equations_lost (F : IneFile) (h : F.Ok) (ls : List (List Char)) (hl : ∀ l ∈ ls, l ≠ kwBegin ∧ '\n' ∉ l) :
    convertIne ({ F with preamble := ls } : IneFile).text = convertIne F.text := by
  unfold convertIne
  have h1 := findBegin_preamble F.preamble h.preamble
  have h2 := findBegin_preamble ls hl
  unfold IneFile.text
  rw [h1, h2]

/-- The equation `x = 1/2` becomes the inequality `2 x ≥ 1`. -/
theorem c87_equation_example : convertIne "H-representation\nlinearity 1 1\nbegin\n1 2 rational\n-1/2 1\nend\n".toList = some "1 2\n-1 2 \n".toList ∧
    readLatteStyleMatrix "1 2\n-1 2 \n".toList false false false = .ok ⟨1, 2, false, [[(-1, 1), (2, 1)]], ∅⟩ := by decide +kernel

/-- A file that meets the hypotheses. -/
def exIne : IneFile := ⟨["H-representation".toList], 3, " rational".toList,
  [[("1".toList, " ".toList), ("-1/2".toList, "  ".toList), ("2/3".toList, "\n".toList)], [("0".toList, " ".toList), ("4/6".toList, " ".toList), ("-7".toList, "\n".toList)]], "end\n".toList⟩

theorem exIne_ok : exIne.Ok := by
  refine ⟨by decide +kernel, ⟨by decide +kernel, by decide +kernel, ?_⟩, by decide +kernel, by decide +kernel, by decide +kernel⟩
  intro c hc
  have : exIne.kind.head? = some ' ' := by decide +kernel
  rw [this] at hc
  cases hc; decide

example : exIne.Matrix [[1, -1 / 2, 2 / 3], [0, 2 / 3, -7]] := by
  refine .cons (.cons (Or.inl ⟨1, by decide +kernel, by norm_num⟩) (.cons (Or.inr ⟨-1, 2, by norm_num, by decide +kernel, by norm_num⟩)
    (.cons (Or.inr ⟨2, 3, by norm_num, by decide +kernel, by norm_num⟩) .nil))) (.cons (.cons (Or.inl ⟨0, by decide +kernel, by norm_num⟩)
      (.cons (Or.inr ⟨4, 6, by norm_num, by decide +kernel, by norm_num⟩) (.cons (Or.inl ⟨-7, by decide +kernel, by norm_num⟩) .nil))) .nil)

example : convertIne exIne.text = some "2 3\n6 -3 4 \n0 2 -21 \n".toList := by decide +kernel

end Verif.Files
