import Verif.Trie.Model
import Mathlib.Data.Rat.Defs

/-!
# Decomposition of monomials into powers of linear forms (model)

Models both `decompose` functions of `code/latte/integration/PolyTrie.cpp:478–612`. Coefficients
(`RationalNTL`) are exact rationals, which is property C01; `int` arithmetic on exponents is unbounded.
-/

namespace Verif.Trie

/-- One place of the arrays `exps`, `counter`, `binomCoeffs`. -/
structure Cell where
  exp : ℤ
  counter : ℤ
  binom : ℤ
deriving DecidableEq, Repr

/-- Counting up, PolyTrie.cpp:556–565: the carry loop and the update of the binomial coefficient at the
place where it stops. Running over the end of the arrays is `none`. -/
def bump : List Cell → Option (List Cell)
  | [] => none
  | c :: cs =>
    if c.counter + 1 > c.exp then (bump cs).map (⟨c.exp, 0, 1⟩ :: ·)
    else some (⟨c.exp, c.counter + 1, c.binom * (c.exp - (c.counter + 1) + 1) / (c.counter + 1)⟩ :: cs)

/-- The linear form for the current counter, PolyTrie.cpp:568–607. -/
def formOf (coef : ℚ) (totalDegree : ℤ) (cs : List Cell) : Term ℚ :=
  let g : ℤ := cs.foldl (fun g c => (Int.gcd g c.counter : ℤ)) 0
  let parity := cs.foldl (fun a c => a - c.counter) totalDegree
  let temp : ℚ := cs.foldl (fun a c => a * (c.binom : ℚ)) 1 * coef
  let temp := if parity % 2 = 1 then temp * -1 else temp
  if g ≠ 1 then
    ⟨temp * (g : ℚ) ^ totalDegree.toNat, cs.map fun c => c.counter / g, totalDegree⟩
  else ⟨temp, cs.map Cell.counter, totalDegree⟩

/-- The loop over the linear forms, PolyTrie.cpp:553–608. -/
def formLoop (coef : ℚ) (totalDegree : ℤ) : (count : ℕ) → List Cell → Option (List (Term ℚ))
  | 0, _ => some []
  | k + 1, cs =>
    match bump cs with
    | none => none
    | some cs => (formLoop coef totalDegree k cs).map (formOf coef totalDegree cs :: ·)

/-- `decompose` of a term, PolyTrie.cpp:505–612: the linear forms passed to `insertLinForm`, in order.
`varCount` is the number of exponents, which is not zero. -/
def decomposeTerm (t : Term ℚ) : Option (List (Term ℚ)) :=
  let formsCount := t.exps.foldl (fun a e => a * (e + 1)) 1 - 1
  let totalDegree := t.exps.foldl (fun a e => a + e) 0
  if formsCount = 0 then some [⟨t.coef, t.exps.map fun _ => 0, 0⟩]
  else formLoop t.coef totalDegree formsCount.toNat (t.exps.map fun e => ⟨e, 0, 1⟩)

/-- The loop of `decompose` over the terms of a polynomial, PolyTrie.cpp:494–503, for the terms the
iterator delivers; the body is entered before the first NULL is looked at. -/
def decomposeLoop : List (Term ℚ) → Sum ℚ → Option (Sum ℚ)
  | [], s => some s
  | t :: ts, s =>
    match decomposeTerm t with
    | none => none
    | some fs =>
      match insertAll s fs with
      | none => none
      | some s => decomposeLoop ts s

/-- `decompose` of a stored polynomial into an empty `linFormSum` over the same variables
(PolyTrie.cpp:482–503). -/
def decompose (fuel rounds n : ℕ) (p : Option (Root ℚ)) : Option (Sum ℚ) :=
  match drain fuel rounds (begin' p n) with
  | none => none
  | some [] => none
  | some (t :: ts) => decomposeLoop (t :: ts) ⟨0, n, none⟩

end Verif.Trie
