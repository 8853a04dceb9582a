import Mathlib.Data.Int.GCD
import Verif.Common.Decimal

/-!
Model of `class RationalNTL` (code/latte/rational.h:168-243, code/latte/rational.cpp:139-592).
`ZZ` is `Int`.  A failed `assert` is `none`.  NTL's `/=` is floor division; here it is only used for
exact quotients by a positive gcd, where it coincides with `Int` division.
-/

namespace Latte.Rational

/-- rational.h:168-172: the two private members of `RationalNTL`. -/
structure RatN where
  num : Int
  den : Int
deriving DecidableEq, Repr

/-- rational.cpp:195-222 `RationalNTL::canonicalize`. -/
def canonicalize (r : RatN) : RatN :=
  if r.den = 0 then ⟨r.num, 1⟩            -- lines 203-207
  else
    let r' : RatN := if r.den < 0 then ⟨r.num * -1, r.den * -1⟩ else r   -- lines 198-202
    let g : Int := Int.gcd r'.num r'.den
    if g ≠ 1 then ⟨r'.num / g, r'.den / g⟩ else r'                       -- lines 209-220

/-- rational.cpp:139-142 default constructor. -/
def zero : RatN := ⟨0, 1⟩

/-- rational.cpp:144-168 constructors from numerator and denominator (the `int` overloads convert to `ZZ`). -/
def mk' (n d : Int) : RatN := canonicalize ⟨n, d⟩

/-- rational.cpp:225-233 `add(num, denom)`; the assert on line 230 is the `none` case. -/
def addZ (r : RatN) (num denom : Int) : Option RatN :=
  let n := r.num * denom + num * r.den
  let d := r.den * denom
  if denom = 0 then none else some (canonicalize ⟨n, d⟩)

/-- rational.cpp:236-245,253-256 `add(rational)`, `operator+`, `operator+=` (also when the argument is the
object itself: the sums are computed before either member is overwritten, except that
`denominator *= denom` with `denom` aliased squares it, which is the same product). -/
def add (a b : RatN) : Option RatN := addZ a b.num b.den

/-- rational.cpp:247-251,257-260 `operator-`, `operator-=`. -/
def sub (a b : RatN) : Option RatN := addZ a (b.num * -1) b.den

/-- rational.cpp:262-267 `div(ZZ)`, and 285-289. -/
def divZ (a : RatN) (z : Int) : RatN := canonicalize ⟨a.num, a.den * z⟩

/-- rational.cpp:269-281 `div(rational)` for an argument that is a different object, and `operator/`
(which copies the left operand first). -/
def div (a b : RatN) : RatN := canonicalize ⟨a.num * b.den, a.den * b.num⟩

/-- rational.cpp:269-275 `x.div(x)`: the argument is a reference to the object itself, so line 272
reads the numerator already overwritten by line 271. -/
def divSelf (a : RatN) : RatN :=
  let n := a.num * a.den       -- line 271: numerator *= rhs.denominator
  let d := a.den * n           -- line 272: denominator *= rhs.numerator (new value)
  canonicalize ⟨n, d⟩

/-- rational.cpp:301-312,358-362,377-380 multiplication of two fractions. -/
def mul (a b : RatN) : RatN := canonicalize ⟨a.num * b.num, a.den * b.den⟩

/-- rational.cpp:314-319,364-390 multiplication by an integer. -/
def mulZ (a : RatN) (z : Int) : RatN := canonicalize ⟨a.num * z, a.den⟩

/-- rational.cpp:324-355 `power`; the assert of line 333 is the `none` case. -/
def power (a : RatN) (e : Int) : Option RatN :=
  if e > 0 then some (canonicalize ⟨a.num ^ e.toNat, a.den ^ e.toNat⟩)
  else if e < 0 then
    if a.num = 0 then none
    else some (canonicalize ⟨a.den ^ (e * -1).toNat, a.num ^ (e * -1).toNat⟩)
  else some (canonicalize ⟨1, 1⟩)

/-- rational.cpp:407-410 `changeSign`. -/
def changeSign (a : RatN) : RatN := ⟨a.num * -1, a.den⟩

/-- rational.cpp:413-416 `operator==`. -/
def eqR (a b : RatN) : Bool := a.num == b.num && a.den == b.den

/-- rational.cpp:418-432 `operator==` with an integer (both overloads). -/
def eqZ (a : RatN) (z : Int) : Bool := a.den == 1 && a.num == z

/-- rational.cpp:434-442 `operator!=`. -/
def neR (a b : RatN) : Bool := !(eqR a b)
/-- rational.cpp:439-442 `operator!=` with an integer. -/
def neZ (a : RatN) (z : Int) : Bool := !(eqZ a z)

/-- rational.cpp:444-456 assignment from an integer. -/
def ofZ (z : Int) : RatN := ⟨z, 1⟩

/-- rational.cpp:620-628 `vec_RationalNTL::innerProduct` (equal lengths asserted). -/
def innerProduct : List RatN → List RatN → Option RatN
  | v, w => if v.length = w.length then
      (List.zip v w).foldlM (fun s p => add s (mul p.1 p.2)) zero
    else none

/-! ### text -/

open Latte.Decimal

/-- rational.cpp:468-475 `operator<<` (and `str`, 399-404). -/
def print (a : RatN) : List Char :=
  printInt a.num ++ (if a.den ≠ 1 then '/' :: printInt a.den else [])

/-- rational.cpp:563-592 `readNumber`: skip white space, one character that must be `+`, `-` or a digit
(else assert = `none`), then digits.  `to_ZZ` of the collected text: NTL rejects a leading `+` and a lone `-`
(`none`).  Result: the number and the rest of the stream. -/
def readNumber (s : List Char) : Option (Int × List Char) :=
  match s.dropWhile isSpace with
  | [] => none
  | c :: cs =>
    if c = '+' ∨ c = '-' ∨ isDigit c then
      (parseInt (c :: cs.takeWhile isDigit)).map (fun z => (z, cs.dropWhile isDigit))
    else none

/-- rational.cpp:529-555 `operator>>`. -/
def read (s : List Char) : Option (RatN × List Char) :=
  (readNumber s).bind fun (num, s1) =>
    match s1.dropWhile isSpace with
    | '/' :: s2 => (readNumber s2).map fun (den, s3) => (mk' num den, s3)
    | s2 => some (mk' num 1, s2)

/-- rational.cpp:177-190 constructor from a string. -/
def ofString (s : List Char) : Option RatN :=
  match s.dropWhile (· ≠ '/') with
  | [] => (parseInt s).map (fun n => ⟨n, 1⟩)
  | _ :: t => (parseInt (s.takeWhile (· ≠ '/'))).bind fun n => (parseInt t).map fun d => mk' n d

/-- rational.cpp:478-514 `myGCD` main loop, with fuel; `k` is `numTimes2`. -/
def myGCDLoop : Nat → Int → Int → Nat → Option Int
  | 0, _, _, _ => none
  | fuel + 1, a, b, k =>
    if a = 0 then some (b * 2 ^ k)
    else if b = 0 then some (a * 2 ^ k)
    else if a % 2 = 0 then
      if b % 2 = 0 then myGCDLoop fuel (a / 2) (b / 2) (k + 1)
      else myGCDLoop fuel (a / 2) b k
    else if b % 2 = 0 then myGCDLoop fuel a (b / 2) k
    else if a < b then myGCDLoop fuel a ((b - a) / 2) k
    else myGCDLoop fuel ((a - b) / 2) b k

/-- rational.cpp:478-486 `myGCD` prologue (`a*sign(a)` is the absolute value). -/
def myGCD (fuel : Nat) (a b : Int) : Option Int :=
  let a := a * a.sign
  let b := b * b.sign
  if b = 1 ∨ a = b then some b else myGCDLoop fuel a b 0

end Latte.Rational
