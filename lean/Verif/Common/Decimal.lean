import Mathlib.Data.Nat.Digits.Lemmas
import Mathlib.Tactic.Ring
import Mathlib.Tactic.Linarith

/-!
Decimal text of integers, as produced by `operator<<` for NTL's `ZZ`, and consumed by
NTL's string conversion `to_ZZ(const char*)`.  NTL itself is not part of the repository; this file
fixes the (standard) behaviour the model assumes for it: optional `-`, then digits without leading
zeros.  Everything else is derived.
-/

namespace Latte.Decimal

/-- `isdigit` in the C locale. -/
def isDigit (c : Char) : Bool := '0' ≤ c && c ≤ '9'

/-- `isspace` in the C locale: blank, `\t \n \v \f \r`. -/
def isSpace (c : Char) : Bool := c == ' ' || (9 ≤ c.toNat && c.toNat ≤ 13)

/-- value of a digit character -/
def digitVal (c : Char) : Nat := c.toNat - 48

/-- character of a digit value -/
def digitChar (d : Nat) : Char := Char.ofNat (48 + d)

/-- decimal text of a natural number, most significant digit first -/
def printNat (n : Nat) : List Char :=
  if n = 0 then ['0'] else ((Nat.digits 10 n).map digitChar).reverse

/-- decimal text of an integer (`ostream << ZZ`) -/
def printInt (z : Int) : List Char :=
  if z < 0 then '-' :: printNat z.natAbs else printNat z.natAbs

/-- value of a digit string -/
def natOfDigits (cs : List Char) : Nat := cs.foldl (fun a c => 10 * a + digitVal c) 0

/-- digit string to natural number; `none` when empty or containing a non-digit -/
def parseNat (cs : List Char) : Option Nat :=
  if cs ≠ [] ∧ cs.all isDigit then some (natOfDigits cs) else none

/-- NTL `to_ZZ(const char*)` on the complete string: optional minus sign and at least one digit.
(`none` = NTL input error.) -/
def parseInt : List Char → Option Int
  | '-' :: cs => (parseNat cs).map (fun n => -(n : Int))
  | cs => (parseNat cs).map (fun n => (n : Int))

theorem digitChar_toNat {d : Nat} (h : d < 10) : (digitChar d).toNat = 48 + d := by
  unfold digitChar
  interval_cases d <;> rfl

theorem isDigit_digitChar {d : Nat} (h : d < 10) : isDigit (digitChar d) = true := by
  interval_cases d <;> decide

theorem digitVal_digitChar {d : Nat} (h : d < 10) : digitVal (digitChar d) = d := by
  unfold digitVal; rw [digitChar_toNat h]; omega

theorem isDigit_ne {c : Char} (h : isDigit c = true) (c' : Char) (h' : isDigit c' = false) : c ≠ c' := by
  intro e; subst e; simp [h] at h'

theorem isDigit_not_space {c : Char} (h : isDigit c = true) : isSpace c = false := by
  unfold isDigit at h
  unfold isSpace
  simp only [Bool.and_eq_true, decide_eq_true_eq] at h
  obtain ⟨h1, _⟩ := h
  have h2 : 48 ≤ c.toNat := h1
  simp only [Bool.or_eq_false_iff, beq_eq_false_iff_ne, ne_eq, Bool.and_eq_false_imp,
    decide_eq_true_eq, decide_eq_false_iff_not, not_le]
  refine ⟨?_, fun _ => by omega⟩
  rintro rfl
  revert h2; decide

theorem printNat_ne_nil (n : Nat) : printNat n ≠ [] := by
  unfold printNat
  split
  · simp
  · rename_i h
    simp [Nat.digits_eq_nil_iff_eq_zero, h]

theorem printNat_digits (n : Nat) : ∀ c ∈ printNat n, isDigit c = true := by
  unfold printNat
  split
  · intro c hc; simp at hc; subst hc; decide
  · intro c hc
    simp only [List.mem_reverse, List.mem_map] at hc
    obtain ⟨d, hd, rfl⟩ := hc
    exact isDigit_digitChar (Nat.digits_lt_base (by norm_num) hd)

theorem natOfDigits_append (a b : List Char) :
    natOfDigits (a ++ b) = natOfDigits a * 10 ^ b.length + natOfDigits b := by
  unfold natOfDigits
  rw [List.foldl_append]
  generalize List.foldl _ 0 a = x
  have : ∀ (b : List Char) (x : Nat), b.foldl (fun a c => 10 * a + digitVal c) x
      = x * 10 ^ b.length + b.foldl (fun a c => 10 * a + digitVal c) 0 := by
    intro b
    induction b with
    | nil => intro x; simp
    | cons c cs ih =>
      intro x
      simp only [List.foldl_cons, List.length_cons]
      rw [ih, ih (10 * 0 + digitVal c)]
      ring
  exact this b x

theorem natOfDigits_map_reverse (l : List Nat) (h : ∀ d ∈ l, d < 10) :
    natOfDigits (l.map digitChar).reverse = Nat.ofDigits 10 l := by
  induction l with
  | nil => rfl
  | cons d ds ih =>
    simp only [List.map_cons, List.reverse_cons, Nat.ofDigits_cons]
    rw [natOfDigits_append, ih (fun x hx => h x (List.mem_cons_of_mem _ hx))]
    simp only [List.length_singleton, pow_one]
    have : natOfDigits [digitChar d] = d := by
      simp [natOfDigits, digitVal_digitChar (h d (List.mem_cons_self ..))]
    rw [this]; ring

theorem natOfDigits_printNat (n : Nat) : natOfDigits (printNat n) = n := by
  unfold printNat
  split
  · rename_i h; subst h; rfl
  · rw [natOfDigits_map_reverse _ (fun d hd => Nat.digits_lt_base (by norm_num) hd)]
    exact Nat.ofDigits_digits 10 n

theorem parseNat_printNat (n : Nat) : parseNat (printNat n) = some n := by
  unfold parseNat
  rw [if_pos, natOfDigits_printNat]
  refine ⟨printNat_ne_nil n, ?_⟩
  rw [List.all_eq_true]
  exact printNat_digits n

theorem printNat_head_ne (n : Nat) (c : Char) (hc : isDigit c = false) (l : List Char) :
    printNat n ≠ c :: l := by
  intro h
  have := printNat_digits n c (by rw [h]; simp)
  rw [this] at hc; cases hc

/-- reading back the decimal text of an integer gives the integer -/
theorem parseInt_printInt (z : Int) : parseInt (printInt z) = some z := by
  unfold printInt
  split
  · rename_i h
    simp only [parseInt, parseNat_printNat]
    show some (-(z.natAbs : Int)) = some z
    congr 1
    omega
  · rename_i h
    have hne := printNat_head_ne z.natAbs '-' (by decide)
    unfold parseInt
    split
    · rename_i cs heq
      exact absurd heq (hne _)
    · rw [parseNat_printNat]
      show some ((z.natAbs : Int)) = some z
      congr 1; omega

theorem printInt_ne_nil (z : Int) : printInt z ≠ [] := by
  unfold printInt; split
  · simp
  · exact printNat_ne_nil _

/-- characters of a printed integer -/
theorem printInt_chars (z : Int) : ∀ c ∈ printInt z, isDigit c = true ∨ c = '-' := by
  unfold printInt; split
  · intro c hc
    simp only [List.mem_cons] at hc
    rcases hc with h | h
    · exact Or.inr h
    · exact Or.inl (printNat_digits _ c h)
  · intro c hc; exact Or.inl (printNat_digits _ c hc)

theorem printInt_injective : Function.Injective printInt := by
  intro a b h
  have := parseInt_printInt a
  rw [h, parseInt_printInt] at this
  exact (Option.some.inj this).symm

/-- shape of a printed integer: a first character that is a digit or `-`, then digits -/
theorem printInt_cons (z : Int) : ∃ c cs, printInt z = c :: cs ∧ (isDigit c = true ∨ c = '-') ∧
    (∀ x ∈ cs, isDigit x = true) := by
  unfold printInt; split
  · exact ⟨'-', _, rfl, Or.inr rfl, printNat_digits _⟩
  · rcases hp : printNat z.natAbs with _ | ⟨c, cs⟩
    · exact absurd hp (printNat_ne_nil _)
    · refine ⟨c, cs, rfl, Or.inl (printNat_digits _ c (by rw [hp]; simp)), fun x hx => printNat_digits _ x (by rw [hp]; simp [hx])⟩

end Latte.Decimal
