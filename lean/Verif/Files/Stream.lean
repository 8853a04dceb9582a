import Verif.Rational.Props

/-!
Input streams as character lists: `operator>>` for `int` and for GMP rationals.
Both are modelled from the C++ and GMP documentation (trusted).
-/

namespace Verif.Files

open Latte.Decimal Latte.Rational

/-- value of an optional sign followed by digits -/
def signed : Char → List Char → Option ℤ
  | '-', ds => (parseNat ds).map fun n : ℕ => -(n : ℤ)
  | '+', ds => (parseNat ds).map fun n : ℕ => (n : ℤ)
  | c, ds => (parseNat (c :: ds)).map fun n : ℕ => (n : ℤ)

/-- Skip white space, then an optional sign and as many digits as there are; `none` if there are no digits. -/
def scanInt (s : List Char) : Option (ℤ × List Char) :=
  match s.dropWhile isSpace with
  | [] => none
  | c :: cs =>
    if c = '+' ∨ c = '-' ∨ isDigit c then
      (signed c (cs.takeWhile isDigit)).map fun z => (z, cs.dropWhile isDigit)
    else none

/-- `std::istream::operator>>(int &)`: additionally fails if the value is not an `int` (32 bit). -/
def readInt (s : List Char) : Option (ℤ × List Char) :=
  (scanInt s).bind fun p => if -2 ^ 31 ≤ p.1 ∧ p.1 < 2 ^ 31 then some p else none

/-- a fraction as read: numerator and denominator, not reduced -/
abbrev RawQ := ℤ × ℤ

/-- GMP `operator>>(istream &, mpq_class &)` in decimal mode: an integer, and if the very next character is `/`, a
denominator.  The fraction is not reduced (GMP manual, "C++ Formatted Input"). -/
def readMpq (s : List Char) : Option (RawQ × List Char) :=
  (scanInt s).bind fun (n, r) =>
    match r with
    | '/' :: r' => (scanInt r').map fun (d, r'') => ((n, d), r'')
    | _ => some ((n, 1), r)

/-- `std::isspace` skipping loop `while (isspace(f.peek())) f.get(c);` -/
def skipSpace (s : List Char) : List Char := s.dropWhile isSpace

theorem signed_printInt (z : ℤ) (c : Char) (cs : List Char) (h : printInt z = c :: cs) : signed c cs = some z := by
  by_cases hz : z < 0
  · have h1 : printInt z = '-' :: printNat z.natAbs := by simp [printInt, hz]
    rw [h1] at h
    obtain ⟨rfl, rfl⟩ := List.cons.inj h
    simp only [signed, parseNat_printNat, Option.map_some, Option.some.injEq]
    omega
  · have h1 : printInt z = printNat z.natAbs := by simp [printInt, hz]
    rw [h1] at h
    have hd := printNat_digits z.natAbs c (by rw [h]; exact List.mem_cons_self ..)
    have e1 : c ≠ '-' := isDigit_ne hd '-' (by decide)
    have e2 : c ≠ '+' := isDigit_ne hd '+' (by decide)
    have h2 : signed c cs = (parseNat (c :: cs)).map fun n : ℕ => (n : ℤ) := by
      unfold signed
      split
      · exact absurd rfl e1
      · exact absurd rfl e2
      · rfl
    rw [h2, ← h, parseNat_printNat]
    simp only [Option.map_some, Option.some.injEq]
    omega

theorem scanInt_print (z : ℤ) (ws rest : List Char) (hws : ∀ c ∈ ws, isSpace c = true)
    (hrest : ∀ c, rest.head? = some c → isDigit c = false) :
    scanInt (ws ++ (printInt z ++ rest)) = some (z, rest) := by
  obtain ⟨c, cs, hz, hc, hcs⟩ := printInt_cons z
  have hd : (ws ++ (printInt z ++ rest)).dropWhile isSpace = c :: (cs ++ rest) := by
    have := (takeWhile_append_of_all (p := isSpace) ws (printInt z ++ rest) hws (by
      intro x hx
      rw [hz] at hx
      simp only [List.cons_append, List.head?_cons, Option.some.injEq] at hx
      subst hx
      rcases hc with h | h
      · exact isDigit_not_space h
      · subst h; decide)).2
    rw [this, hz]; rfl
  unfold scanInt
  rw [hd]
  have ht := takeWhile_append_of_all (p := isDigit) cs rest hcs hrest
  simp only []
  rw [if_pos (by rcases hc with h | h; exact Or.inr (Or.inr h); exact Or.inr (Or.inl h)), ht.1, ht.2,
    signed_printInt z c cs hz]
  rfl

/-- within the range of `int` -/
def IsInt (z : ℤ) : Prop := -2 ^ 31 ≤ z ∧ z < 2 ^ 31

theorem readInt_print (z : ℤ) (hz : IsInt z) (ws rest : List Char) (hws : ∀ c ∈ ws, isSpace c = true)
    (hrest : ∀ c, rest.head? = some c → isDigit c = false) :
    readInt (ws ++ (printInt z ++ rest)) = some (z, rest) := by
  unfold readInt
  rw [scanInt_print z ws rest hws hrest]
  simp only [Option.bind_some]
  exact if_pos hz

/-- GMP `operator<<(ostream &, mpq)`: numerator, and `/` denominator unless it is one. -/
def printQ (q : ℚ) : List Char :=
  printInt q.num ++ (if q.den ≠ 1 then '/' :: printInt q.den else [])

theorem readMpq_print (q : ℚ) (ws rest : List Char) (hws : ∀ c ∈ ws, isSpace c = true)
    (hrest : ∀ c, rest.head? = some c → isDigit c = false ∧ c ≠ '/') :
    readMpq (ws ++ (printQ q ++ rest)) = some ((q.num, (q.den : ℤ)), rest) := by
  unfold printQ readMpq
  by_cases hd : q.den = 1
  · simp only [hd, ne_eq, not_true_eq_false, if_false, List.append_nil]
    rw [scanInt_print _ _ _ hws (fun c hc => (hrest c hc).1)]
    simp only [Option.bind_some]
    cases rest with
    | nil => rfl
    | cons c cs =>
      have hc := (hrest c rfl).2
      split
      · rename_i s2 heq
        simp only [List.cons.injEq] at heq
        exact absurd heq.1 hc
      · rfl
  · simp only [hd, ne_eq, not_false_eq_true, if_true, List.append_assoc]
    rw [scanInt_print _ _ _ hws (by
      intro c hc
      simp only [List.cons_append, List.head?_cons, Option.some.injEq] at hc
      subst hc; decide)]
    simp only [Option.bind_some, List.cons_append]
    have := scanInt_print q.den [] rest (by simp) (fun c hc => (hrest c hc).1)
    simp only [List.nil_append] at this
    rw [this]
    rfl

end Verif.Files
