import Verif.Barvinok.Model
import Mathlib.Data.Int.Log
import Mathlib.Data.Rat.Floor

/-!
# Model of integer optimization by binary search (`latte-maximize bbs`, `latte-minimize bbs`)

`binarySearch`, binarySearchIP.cpp, and its callers.  The external programs are parameters: cdd as LP solver and `count`.  Their contracts are in
`Verif/Optimize/Spec.lean`.  Numbers of type `RR` are rational numbers, rounded after every operation to 150 bits, NTL's default precision (to nearest,
ties to even, as NTL documents).
-/

namespace Verif.Optimize

open Verif.Barvinok (Vec)

variable {n : ℕ}

/-- A row `b + a · x` of a matrix, a vector of length `numOfVars + 1`. -/
abbrev Row (n : ℕ) := ℤ × Vec n

/-- How a run ends without an answer: `exit(1)` (`system_with_error_check`, latte_system.cpp:34–43), or never. -/
inductive Stop where
  | exit1
  | fuel
  deriving DecidableEq

/-! ## The files -/

/-- A file for `count` in LattE format: the numbers in the first line, the rows, and the numbers in the line `linearity`, if there is one. -/
structure LatteFile (n : ℕ) where
  numRows : ℕ
  numCols : ℕ
  rows : List (Row n)
  linearity : List ℕ

/-- A file for cdd, with the cost function after `maximize`. -/
structure LpFile (n : ℕ) where
  numRows : ℕ
  numCols : ℕ
  rows : List (Row n)
  objective : Row n

/-- The rows of equations in the file for cdd, binarySearchIP.cpp:57–63: each is written twice, with both signs. -/
def lpRows : List (Row n) → List (Row n)
  | [] => []
  | r :: rs => r :: (-r.1, -r.2) :: lpRows rs

/-- `createCddIneLPFile2`, binarySearchIP.cpp:43–78. -/
def lpFile (eqs ineqs : List (Row n)) (cost : Vec n) : LpFile n where
  numRows := 2 * eqs.length + ineqs.length
  numCols := n + 1
  rows := lpRows eqs ++ ineqs
  objective := (0, cost)

/-- `createLatteFileEqu`, binarySearchIP.cpp:128–159. -/
def latteFileEqu (eqs ineqs : List (Row n)) (rhs : ℤ) (lhs : Vec n) : LatteFile n where
  numRows := eqs.length + 1 + ineqs.length
  numCols := n + 1
  rows := eqs ++ (-rhs, lhs) :: ineqs
  linearity := 1 :: (List.range eqs.length).map (2 + ·)

/-- `createLatteFile`, binarySearchIP.cpp:180–211.  (No line `linearity` if there are no equations: then the list is empty.) -/
def latteFile (eqs ineqs : List (Row n)) (rhs : ℤ) (lhs : Vec n) : LatteFile n where
  numRows := eqs.length + 1 + ineqs.length
  numCols := n + 1
  rows := eqs ++ (-rhs, lhs) :: ineqs
  linearity := (List.range eqs.length).map (1 + ·)

/-! ## Numbers of type `RR` -/

/-- Nearest integer, ties to even. -/
def roundEven (q : ℚ) : ℤ :=
  if q - ⌊q⌋ < 1 / 2 then ⌊q⌋ else if 1 / 2 < q - ⌊q⌋ then ⌊q⌋ + 1 else if ⌊q⌋ % 2 = 0 then ⌊q⌋ else ⌊q⌋ + 1

/-- Rounding to a mantissa of 150 bits. -/
def rnd (q : ℚ) : ℚ :=
  if q = 0 then 0 else roundEven (q / 2 ^ (Int.log 2 |q| - 149)) * 2 ^ (Int.log 2 |q| - 149)

/-- A coordinate of the solution, binarySearchIP.cpp:276–286: numerator and denominator are converted, then divided. -/
def rrEntry (x : ℤ × ℤ) : ℚ := rnd (rnd x.1 / rnd x.2)

/-- The inner product of NTL (`operator*` for `vec_RR`), binarySearchIP.cpp:288–289: products and sums are rounded. -/
def rrDot (cost : Vec n) (x : Fin n → ℤ × ℤ) : ℚ :=
  (List.finRange n).foldl (fun s i => rnd (s + rnd (rnd (cost i) * rrEntry (x i)))) 0

/-! ## The search -/

/-- The external programs: cdd applied to `LP.ine` gives numerators and denominators of a solution (`LP2`, binarySearchIP.cpp:111–126, `ReadLpsFile2`,
82–108); `count` applied to `latte_BS` writes the file `numOfLatticePoints`, or ends with a status other than zero (none). -/
structure Tools (n : ℕ) where
  lp : LpFile n → Fin n → ℤ × ℤ
  count : LatteFile n → Option ℤ

/-- `OptimalCheckEqu`, binarySearchIP.cpp:162–176. -/
def optimalCheckEqu (T : Tools n) (eqs ineqs : List (Row n)) (rhs : ℤ) (lhs : Vec n) : Except Stop ℤ :=
  match T.count (latteFileEqu eqs ineqs rhs lhs) with
  | none => .error .exit1
  | some c => .ok c

/-- `OptimalCheck`, binarySearchIP.cpp:214–239, without the statistics of unimodular cones. -/
def optimalCheck (T : Tools n) (eqs ineqs : List (Row n)) (rhs : ℤ) (lhs : Vec n) : Except Stop ℤ :=
  match T.count (latteFile eqs ineqs rhs lhs) with
  | none => .error .exit1
  | some c => .ok c

/-- The while loop, binarySearchIP.cpp:304–319: lower end and number of rounds when it stops.  `fuel` bounds the number of rounds. -/
def bisect (check : ℤ → Except Stop ℤ) : (fuel : ℕ) → (low high : ℤ) → (counter : ℕ) → Except Stop (ℤ × ℕ)
  | 0, _, _, _ => .error .fuel
  | fuel + 1, low, high, counter =>
    if high - low = 1 then .ok (low, counter)
    else
      match check ((low + high) / 2) with
      | .error e => .error e
      | .ok opt =>
        if opt ≠ 0 then bisect check fuel ((low + high) / 2) high (counter + 1)
        else bisect check fuel low ((low + high) / 2) (counter + 1)

/-- What the user sees: the printed optimal value, the number of optimal solutions (returned by `binarySearch` and printed by its caller) and the printed number
of iterations (zero if none is printed). -/
structure Answer where
  value : ℤ
  solutions : ℤ
  iterations : ℕ
  deriving DecidableEq

/-- `binarySearch`, binarySearchIP.cpp:242–331; `minimize` says that `min[0]` is `'y'`. -/
def binarySearch (T : Tools n) (fuel : ℕ) (eqs ineqs : List (Row n)) (cost : Vec n) (minimize : Bool) : Except Stop Answer :=
  let lowOpt := T.lp (lpFile eqs ineqs (-cost))
  let highOpt := T.lp (lpFile eqs ineqs cost)
  let high := ⌈rrDot cost highOpt⌉
  match optimalCheckEqu T eqs ineqs high cost with
  | .error e => .error e
  | .ok opt =>
    let high := high + 1
    let low := ⌈rrDot cost lowOpt⌉
    let ends := if high < low then (high, low) else (low, high)
    if opt ≠ 0 then .ok ⟨ends.2 - 1, opt, 0⟩
    else
      match bisect (fun mid => optimalCheck T eqs ineqs mid cost) fuel ends.1 ends.2 0 with
      | .error e => .error e
      | .ok (low, counter) =>
        match optimalCheck T eqs ineqs low cost with
        | .error e => .error e
        | .ok opt => .ok ⟨if minimize then -low else low, opt, counter⟩

/-- `latte-maximize bbs`, maximize.cpp:266, 298–302. -/
def latteMaximize (T : Tools n) (fuel : ℕ) (eqs ineqs : List (Row n)) (cost : Vec n) : Except Stop Answer :=
  binarySearch T fuel eqs ineqs cost false

/-- `latte-minimize bbs`, minimize.cpp:267, 299–303: the signs of the cost are changed. -/
def latteMinimize (T : Tools n) (fuel : ℕ) (eqs ineqs : List (Row n)) (cost : Vec n) : Except Stop Answer :=
  binarySearch T fuel eqs ineqs (-cost) true

end Verif.Optimize
