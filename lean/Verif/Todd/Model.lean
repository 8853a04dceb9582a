import Mathlib.Data.Rat.Defs
import Mathlib.Algebra.Order.Ring.Rat
import Mathlib.Algebra.BigOperators.Group.Finset.Basic
import Mathlib.Algebra.BigOperators.Intervals

/-!
# Model of `code/latte/todd/todd-expansion.cpp`

`mpq_vector` (a `std::vector<mpq_class>`) is a Lean `List ℚ`; entry `i` holds the coefficient of
`t^i`. Reading beyond the end never happens in the functions below when they are called as in the
program; `getD _ 0` is used for indexing. Division by zero (GMP aborts) is the outcome `none`.
-/

namespace Verif.Todd

/-- The loop of `taylor_exponential`, todd-expansion.cpp:27–29: `left` entries remain to be written,
`i` is the loop counter, `coeff` the current coefficient; after writing, `i++` and `coeff /= i`. -/
def expLoop : (left i : ℕ) → (coeff : ℚ) → List ℚ
  | 0, _, _ => []
  | left + 1, i, coeff => coeff :: expLoop left (i + 1) (coeff / ((i + 1 : ℕ) : ℚ))

/-- `taylor_exponential`, todd-expansion.cpp:23–31. -/
def taylorExponential (order : ℕ) : List ℚ := expLoop (order + 1) 0 1

/-- The inner loop of `taylor_reciprocal`, todd-expansion.cpp:46–49:
`sum = Σ_{j=1..i} a[j] * b[i-j]`. -/
def recipSum (a b : List ℚ) (i : ℕ) : ℚ :=
  ∑ j ∈ Finset.Icc 1 i, a.getD j 0 * b.getD (i - j) 0

/-- The outer loop of `taylor_reciprocal`, todd-expansion.cpp:41–51: the first `n` entries of `b`
(the entries are written in increasing order and never changed afterwards). -/
def recipLoop (a : List ℚ) : ℕ → List ℚ
  | 0 => []
  | 1 => [1 / a.getD 0 0]
  | n + 2 => recipLoop a (n + 1) ++ [-recipSum a (recipLoop a (n + 1)) (n + 1) / a.getD 0 0]

/-- `taylor_reciprocal`, todd-expansion.cpp:33–53. `none`: `a` is empty (`a[0]` does not exist) or
`a[0]` is zero (division by zero in GMP). -/
def taylorReciprocal (a : List ℚ) : Option (List ℚ) :=
  if a.length = 0 ∨ a.getD 0 0 = 0 then none else some (recipLoop a a.length)

/-- `taylor_for_todd`, todd-expansion.cpp:55–66. -/
def taylorForTodd (order : ℕ) : Option (List ℚ) :=
  let exp := taylorExponential (order + 2)
  taylorReciprocal ((List.range (order + 1)).map fun i => -exp.getD (i + 1) 0)

/-- `taylor_product_aux`, todd-expansion.cpp:68–82. -/
def taylorProductAux (a b : List ℚ) : List ℚ :=
  (List.range (min a.length b.length)).map fun i =>
    ∑ j ∈ Finset.range (i + 1), a.getD j 0 * b.getD (i - j) 0

/-- `taylor_product`, todd-expansion.cpp:84–98. -/
def taylorProduct : List (List ℚ) → List ℚ
  | [] => [1]
  | p :: ps => ps.foldl taylorProductAux p

/-- The innermost loop of `evaluate_todd`, todd-expansion.cpp:113–120: `coefficient` runs through the
powers of `x`. -/
def scaleLoop (x : ℤ) : List ℚ → (coefficient : ℤ) → List ℚ
  | [], _ => []
  | s :: rest, c => (c : ℚ) * s :: scaleLoop x rest (c * x)

/-- `evaluate_todd`, todd-expansion.cpp:100–124. -/
def evaluateTodd (x : List ℤ) : Option (List ℚ) :=
  match taylorForTodd x.length with
  | none => none
  | some factor => some (taylorProduct (x.map fun xi => scaleLoop xi factor 1))

end Verif.Todd
