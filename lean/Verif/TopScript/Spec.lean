import Verif.TopScript.Model

/-!
# Specification: what Maple reads in the script

A reader for nested lists of rational numbers, written without looking at how the script is printed.
-/

namespace Verif.TopScript

open Verif.Barvinok Verif.Barvinok.Spec
open Latte.Decimal (isDigit isSpace parseInt)

variable {n : ℕ}

/-- **Specification.** Values: rational numbers and lists. -/
inductive Maple where
  | num (q : ℚ)
  | list (l : List Maple)

/-- **Specification.** Leave out white space. -/
def skip (s : List Char) : List Char := s.dropWhile isSpace

/-- **Specification.** The characters of numbers. -/
def isNum (c : Char) : Bool := isDigit c || c == '-' || c == '/'

/-- **Specification.** A number: an integer, or two integers with a slash. -/
def readNum (s : List Char) : Option (Maple × List Char) :=
  let tok := s.takeWhile isNum
  let rest := s.dropWhile isNum
  match tok.dropWhile (· ≠ '/') with
  | [] => (parseInt tok).map fun z => (.num z, rest)
  | _ :: den =>
    match parseInt (tok.takeWhile (· ≠ '/')), parseInt den with
    | some p, some q => some (.num ((p : ℚ) / q), rest)
    | _, _ => none

mutual
/-- **Specification.** A value and what follows it. -/
def readValue : ℕ → List Char → Option (Maple × List Char)
  | 0, _ => none
  | f + 1, s =>
    match skip s with
    | [] => none
    | c :: r =>
      if c = '[' then
        match skip r with
        | ']' :: r' => some (.list [], r')
        | _ => (readItems f r).map fun p => (.list p.1, p.2)
      else readNum (c :: r)
/-- **Specification.** Values with commas between them, up to the closing bracket. -/
def readItems : ℕ → List Char → Option (List Maple × List Char)
  | 0, _ => none
  | f + 1, s =>
    match readValue f s with
    | none => none
    | some (v, r) =>
      match skip r with
      | ',' :: r' => (readItems f r').map fun p => (v :: p.1, p.2)
      | ']' :: r' => some ([v], r')
      | _ => none
end

/-- **Specification.** The text is read as this value (with all bounds that are large enough for the recursion). -/
def ReadsAs (s : List Char) (v : Maple) : Prop := ∃ N, ∀ f, N ≤ f → readValue f s = some (v, [])

/-- **Specification.** A cone `[[v_1, …], [[r_11, …], …]]`. -/
def mapleCone (c : (Fin n → ℚ) × List (Vec n)) : Maple :=
  .list [.list (List.ofFn fun i => .num (c.1 i)), .list (c.2.map fun r => .list (List.ofFn fun i => .num (r i)))]

/-- **Specification.** A power of a linear form with its coefficient: `[c, [k, [l_1, …]]]` for `c (l_1 x_1 + …)^k`. -/
def mapleForm (t : ℚ × ℕ × (Fin n → ℤ)) : Maple := .list [.num t.1, .list [.num (t.2.1 : ℚ), .list (List.ofFn fun i => .num (t.2.2 i))]]

/-- **Specification.** What the script says: the cones, the powers of linear forms, and the function called. -/
structure Says (s : List Char) (n : ℕ) (o : Options) (cones : List ((Fin n → ℚ) × List (Vec n))) (forms : List (ℚ × ℕ × (Fin n → ℤ))) : Prop where
  text : ∃ pre a b mid post : List Char, s = pre ++ "\n simpleCones := ".toList ++ a ++ ": #end of the vertex-cones\nlinearForms:= ".toList ++ b ++
      ": #end of the linear forms. \n\n".toList ++ mid ++ "epoly:=".toList ++
      (if o.coefficients = -1 then "printIncrementalEhrhartPolynomial".toList else "findEhrhartPolynomial".toList) ++
      "(t, T, simpleCones, linearForms,".toList ++ Latte.Decimal.printInt n ++ ", ".toList ++ (if o.realDilations then "true" else "false").toList ++ ", ".toList ++ Latte.Decimal.printInt o.coefficients ++ ", ".toList ++
      (if o.save = "-1".toList then "-1".toList else "\"".toList ++ o.save ++ "\"".toList) ++ "):".toList ++ "\n".toList ++ post ∧ ReadsAs a (.list (cones.map mapleCone)) ∧ ReadsAs b (.list (forms.map mapleForm))

/-- **Specification.** The indicator of the cone with vertex `τ v` and the given rays. -/
noncomputable def coneAt (τ : ℝ) (c : (Fin n → ℚ) × List (Vec n)) (y : Fin n → ℝ) : ℤ := ind (Regular.generated c.2) fun k => y k - τ * (c.1 k : ℝ)

/-- **Specification.** The cones represent the polytope `A`: each is simplicial, and for each real dilation the indicators of the dilated cones add up to the indicator of the dilated polytope,
up to indicators with lines, for which sums over lattice points vanish. -/
structure Represent (cones : List ((Fin n → ℚ) × List (Vec n))) (A : Set (Fin n → ℝ)) : Prop where
  simplicial : ∀ c ∈ cones, c.2.length = n ∧ Regular.Spans c.2
  dilations : ∀ τ : ℝ, 0 < τ → (fun y => (cones.map fun c => coneAt τ c y).sum - ind {y | (fun k => y k / τ) ∈ A} y) ∈ lineFn n

/-- **Specification.** The value of the sum of powers of linear forms. -/
noncomputable def formsAt (forms : List (ℚ × ℕ × (Fin n → ℤ))) (x : Fin n → ℝ) : ℝ :=
  (forms.map fun t : ℚ × ℕ × (Fin n → ℤ) => (t.1 : ℝ) * (∑ j, (t.2.2 j : ℝ) * x j) ^ t.2.1).sum

end Verif.TopScript
