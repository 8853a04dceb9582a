import Mathlib.Data.Rat.Defs
import Mathlib.Data.Nat.Factorial.Basic
import Verif.Rational.Model
import Verif.Trie.Model

/-!
# Text form of polynomials and of sums of powers of linear forms (model)

Models `parseMonomials`, `loadMonomials`, `printMonomials`, `parseLinForms`, `loadLinForms`,
`printLinForms` (code/latte/integration/PolyTrie.cpp:9–145, 153–320) and the load consumers
(code/latte/integration/consumers.h:41–65).

The text is a list of characters; the loop index `i` is the rest of the text from `i` on. Reading
beyond the end of the text, writing beyond the end of an array, a failed conversion and a NULL
dereference are `none`. `int` is `ℤ` (overflow not modelled), `RationalNTL` is `ℚ` (justified by
C01, C02), its text form is that of `Verif/Rational/Model.lean`.
-/

namespace Verif.Trie.Text

open Latte.Decimal

/-- `for (; !stop(line[i]); i++);` — the text passed over and the text from the stop character on. -/
def scanTo (stop : Char → Bool) : List Char → Option (List Char × List Char)
  | [] => none
  | c :: cs => if stop c then some ([], c :: cs)
      else (scanTo stop cs).map fun r => (c :: r.1, r.2)

/-- PolyTrie.cpp:22–26: number of commas before the first `]`. -/
def commas (line : List Char) : Option ℕ :=
  (scanTo (· == ']') line).map fun r => r.1.count ','

/-- `RationalNTL(const char*)` (rational.cpp:177–190) as a number. -/
def parseRat (s : List Char) : Option ℚ :=
  (Latte.Rational.ofString s).map fun r => (r.num : ℚ) / (r.den : ℚ)

/-- `operator<<` of a rational (rational.cpp:468–475). -/
def printRat (q : ℚ) : List Char := Latte.Rational.print ⟨q.num, q.den⟩

/-- `atoi`: white space, an optional sign, digits; 0 if there are none. -/
def atoi (s : List Char) : ℤ :=
  match s.dropWhile isSpace with
  | '-' :: r => -(natOfDigits (r.takeWhile isDigit) : ℤ)
  | '+' :: r => natOfDigits (r.takeWhile isDigit)
  | r => natOfDigits (r.takeWhile isDigit)

/-- The loop reading a bracketed list into an array (PolyTrie.cpp:57–67 with `conv = atoi`, 207–219 with
`conv = to_ZZ`); `k` is `expIndex`/`k`, the position is that after the opening bracket. Returns the array
and the text from the `]` on at which the loop stops. (The inner loop stops at `,` or `]` and the `i++` of
the outer one passes over it, so after the last entry the loop ends at the following `]`.) -/
def parseVec (conv : List Char → Option ℤ) : (fuel : ℕ) → ℕ → List ℤ → List Char →
    Option (List ℤ × List Char)
  | 0, _, _, _ => none
  | _ + 1, _, _, [] => none
  | f + 1, k, arr, c :: cs =>
    if c = ']' then some (arr, c :: cs)
    else if c = ' ' then parseVec conv f k arr cs
    else
      match scanTo (fun x => x == ',' || x == ']') (c :: cs) with
      | none => none
      | some (tok, rest) =>
        if k < arr.length then
          (conv tok).bind fun z => parseVec conv f (k + 1) (arr.set k z) rest.tail
        else none

/-- The main loop of `parseMonomials`, PolyTrie.cpp:43–76: `flag = 1` if `coef` is given, 0 otherwise;
`arr` is the array `exponents`; `line.drop i` is the text, `i < length - 1` means at least two characters
are left. The result is the sequence of calls of `ConsumeMonomial`. -/
def monoLoop : (fuel : ℕ) → Option ℚ → List ℤ → List Char → Option (List (ℚ × List ℤ))
  | 0, _, _, _ => none
  | f + 1, coef, arr, line =>
    if line.length < 2 then some []
    else
      match line with
      | [] => none
      | c :: cs =>
        if c = '[' then
          match coef with
          | none =>
            match scanTo (· == ',') cs with
            | none => none
            | some (tok, rest) => (parseRat tok).bind fun q => monoLoop f (some q) arr rest.tail
          | some q =>
            match parseVec (fun s => some (atoi s)) f 0 arr cs with
            | none => none
            | some (arr, rest) => (monoLoop f none arr rest.tail).map ((q, arr) :: ·)
        else monoLoop f coef arr cs

/-- `parseMonomials`, PolyTrie.cpp:20–79. `garbage` is the content of the uninitialised array
`new int[varCount]`. Result: the dimension set and the monomials consumed; `none` inside if the code
bails out because there are no variables (27–32). -/
def parseMonomials (garbage : ℕ → ℤ) (line : List Char) : Option (Option (ℕ × List (ℚ × List ℤ))) :=
  match commas line with
  | none => none
  | some 0 => some none
  | some (n + 1) =>
    (monoLoop (line.length + 1) none (List.ofFn fun i : Fin (n + 1) => garbage i) line.tail).map fun r =>
      some (n + 1, r)

/-- `loadMonomials`, PolyTrie.cpp:10–18, into an empty sum: the consumer (consumers.h:41–52) sets the
dimension and inserts (degree -1, PolyTrie.cpp:102). -/
def loadMonomials (garbage : ℕ → ℤ) (line : List Char) : Option (Sum ℚ) :=
  match parseMonomials garbage line with
  | none => none
  | some none => some ⟨0, 0, none⟩
  | some (some (n, ms)) => insertAll ⟨0, n, none⟩ (ms.map fun m => ⟨m.1, m.2, -1⟩)

/-- The separated list of numbers, PolyTrie.cpp:125–132. -/
def printVec : List ℤ → List Char
  | [] => []
  | [z] => printInt z
  | z :: w :: zs => printInt z ++ ',' :: ' ' :: printVec (w :: zs)

/-- PolyTrie.cpp:124–133: one term. -/
def printMono (t : Term ℚ) : List Char :=
  '[' :: (printRat t.coef ++ (',' :: ' ' :: '[' :: (printVec t.exps ++ [']', ']'])))

/-- PolyTrie.cpp:118–135: the loop body for each delivered term; `, ` between. -/
def joinTerms (pr : Term ℚ → List Char) : List (Term ℚ) → List Char
  | [] => []
  | [t] => pr t
  | t :: u :: ts => pr t ++ ',' :: ' ' :: joinTerms pr (u :: ts)

/-- The `do … while` around the iterator: the first term is dereferenced without a test. -/
def printTerms (pr : Term ℚ → List Char) : List (Term ℚ) → Option (List Char)
  | [] => none
  | t :: ts => some ('[' :: (joinTerms pr (t :: ts) ++ [']']))

/-- `printMonomials`, PolyTrie.cpp:110–138. -/
def printMonomials (fuel rounds : ℕ) (s : Sum ℚ) : Option (List Char) :=
  (drain fuel rounds (begin' s.trie s.varCount)).bind (printTerms printMono)

/-! ## Powers of linear forms -/

/-- State of `parseLinForms` (`flag`): expecting a coefficient, a degree, or a coefficient vector. -/
inductive LState where
  | coef
  | deg (q : ℚ)
  | vec (q : ℚ) (d : ℤ)

/-- PolyTrie.cpp:220–224: `for (j = 1; j <= degree; j++) degreeFactorial *= j`. -/
def degFact (d : ℤ) : ℤ := (List.range d.toNat).foldl (fun (a : ℤ) (j : ℕ) => a * ((j : ℤ) + 1)) 1

/-- The main loop of `parseLinForms`, PolyTrie.cpp:186–235; the calls of `ConsumeLinForm` as terms. -/
def formLoop : (fuel : ℕ) → LState → List ℤ → List Char → Option (List (Term ℚ))
  | 0, _, _, _ => none
  | f + 1, st, arr, line =>
    if line.length < 2 then some []
    else
      match line with
      | [] => none
      | c :: cs =>
        if c = '[' then
          match st with
          | .coef =>
            match scanTo (· == ',') cs with
            | none => none
            | some (tok, rest) => (parseRat tok).bind fun q => formLoop f (.deg q) arr rest.tail
          | .deg q =>
            match scanTo (· == ',') cs with
            | none => none
            | some (tok, rest) => formLoop f (.vec q (atoi tok)) arr rest.tail
          | .vec q d =>
            match parseVec parseInt f 0 arr cs with
            | none => none
            | some (arr, rest) =>
              (formLoop f .coef arr rest.tail).map (⟨q * (degFact d : ℚ), arr, d⟩ :: ·)
        else formLoop f st arr cs

/-- `parseLinForms`, PolyTrie.cpp:165–236: one variable less than commas; `vec_ZZ` starts as zero. -/
def parseLinForms (line : List Char) : Option (Option (ℕ × List (Term ℚ))) :=
  match commas line with
  | none => none
  | some (n + 2) =>
    (formLoop (line.length + 1) .coef (List.replicate (n + 1) 0) line.tail).map fun r => some (n + 1, r)
  | some _ => some none

/-- `loadLinForms`, PolyTrie.cpp:153–161. -/
def loadLinForms (line : List Char) : Option (Sum ℚ) :=
  match parseLinForms line with
  | none => none
  | some none => some ⟨0, 0, none⟩
  | some (some (n, fs)) => insertAll ⟨0, n, none⟩ fs

/-- PolyTrie.cpp:297–307: one term. -/
def printForm (t : Term ℚ) : List Char :=
  '[' :: (printRat t.coef ++ (',' :: ' ' :: '[' :: (printInt t.degree ++
    (',' :: ' ' :: '[' :: (printVec t.exps ++ [']', ']', ']'])))))

/-- `printLinForms`, PolyTrie.cpp:282–312. -/
def printLinForms (fuel rounds : ℕ) (s : Sum ℚ) : Option (List Char) :=
  (drain fuel rounds (begin' s.trie s.varCount)).bind (printTerms printForm)

end Verif.Trie.Text
