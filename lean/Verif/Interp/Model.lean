import Mathlib.Data.Rat.Defs

/-!
Model of `class PolynomialInterpolation` (code/latte/interpolation/PolynomialInterpolation.cpp).
`n = rowSize = colSize = degree + 1`; `mpq_class` is `ℚ`; the array of row pointers is a function `row → column → value`
of which only rows `< n` and columns `≤ n` exist. Using a row `≥ n` is the outcome `outOfBounds`, `exit(1)` is `exit`.
-/

namespace Latte.Interp

abbrev Mat := Nat → Nat → ℚ

/-- abnormal outcomes -/
inductive Err where
  | exit
  | outOfBounds
deriving DecidableEq, Repr

/-- PolynomialInterpolation.h:18-23 members. -/
structure St where
  n : Nat
  mat : Mat
  cnt : Nat

/-- PolynomialInterpolation.cpp:16-35 constructor. -/
def create (degree : Nat) : St := ⟨degree + 1, fun _ _ => 0, 0⟩

/-- PolynomialInterpolation.cpp:66-70 the loop filling powers: column `j` gets `1·x·…·x`. -/
def powLoop (x : ℚ) : Nat → ℚ
  | 0 => 1
  | j + 1 => powLoop x j * x

/-- PolynomialInterpolation.cpp:54-74 `addPoint`. -/
def addPoint (s : St) (x f : ℚ) : Except Err St :=
  if s.cnt ≥ s.n then .error .exit
  else .ok { s with
    mat := fun i j => if i = s.cnt then (if j < s.n then powLoop x j else if j = s.n then f else s.mat i j) else s.mat i j,
    cnt := s.cnt + 1 }

/-- PolynomialInterpolation.cpp:41-48 `addMultRows`. -/
def addMultRows (n : Nat) (M : Mat) (value : ℚ) (src dst : Nat) : Mat :=
  fun i j => if i = dst ∧ j ≤ n then M dst j - value * M src j else M i j

/-- PolynomialInterpolation.cpp:242-250 `timesRow`. -/
def timesRow (n : Nat) (M : Mat) (r : Nat) (value : ℚ) : Mat :=
  fun i j => if i = r ∧ j ≤ n then M i j * value else M i j

/-- PolynomialInterpolation.cpp:230-236 `swap`. -/
def swapRows (M : Mat) (a b : Nat) : Mat :=
  fun i => if i = a then M b else if i = b then M a else M i

/-- PolynomialInterpolation.cpp:117-121 search of a row with a non-zero entry (`k = n - r` rows left). -/
def findRow (M : Mat) (col : Nat) : Nat → Nat → Nat
  | r, 0 => r
  | r, k + 1 => if M r col = 0 then findRow M col (r + 1) k else r

/-- PolynomialInterpolation.cpp:155-168 elimination of column `col` in all rows but `p`, from row `i` on. -/
def elim (n p col : Nat) : Nat → Nat → Mat → Except Err Mat
  | 0, _, M => .ok M
  | k + 1, i, M =>
    if M i col ≠ 0 ∧ i ≠ p then
      let M' := addMultRows n M (M i col) p i
      if M' i col ≠ 0 then .error .exit else elim n p col k (i + 1) M'
    else elim n p col k (i + 1) M

/-- PolynomialInterpolation.cpp:106-172 `GE`; `k = n - c` columns left, `p` is `perfectRow`, `c` is `currentColumn`.
The comparison on line 123 is `currentRow > rowSize`, as in the code. -/
def ge (n : Nat) : Nat → Nat → Nat → Mat → Except Err Mat
  | 0, _, _, M => .ok M
  | k + 1, p, c, M =>
    if p < n then
      let r := findRow M c p (n - p)
      if r > n then ge n k p (c + 1) M
      else if r = n then .error .outOfBounds
      else
        let M1 := swapRows M r p
        if M1 p c = 0 then .error .exit
        else
          let M2 := timesRow n M1 p (1 / M1 p c)
          if M2 p c ≠ 1 then .error .exit
          else
            match elim n p c n 0 M2 with
            | .error e => .error e
            | .ok M3 => ge n k (p + 1) (c + 1) M3
    else .ok M

/-- PolynomialInterpolation.cpp:207-216 `isSingular`. -/
def isSingular (n : Nat) (M : Mat) : Bool :=
  (List.range n).any fun i => (List.range n).any fun k => (M i k ≠ 0 ∧ i ≠ k) ∨ (M i k ≠ 1 ∧ i = k)

/-- PolynomialInterpolation.cpp:222-226, 178-193 `solve` and `getSolutionVector`. -/
def solve (s : St) : Except Err (List ℚ) :=
  match ge s.n s.n 0 0 s.mat with
  | .error e => .error e
  | .ok M => if isSingular s.n M then .error .exit else .ok ((List.range s.n).map fun i => M i s.n)

/-- PolynomialInterpolation.cpp:80-103 loop of `evaluatePoly`, from index `i` down to 1. -/
def evalLoop (poly : List ℚ) (x : ℚ) : Nat → ℚ → ℚ
  | 0, sum => sum
  | i + 1, sum => evalLoop poly x i ((sum + poly.getD (i + 1) 0) * x)

/-- PolynomialInterpolation.cpp:80-103 `evaluatePoly` (for a non-empty coefficient vector). -/
def evaluatePoly (x : ℚ) (poly : List ℚ) : ℚ := evalLoop poly x (poly.length - 1) 0 + poly.getD 0 0

/-- the use made of the class (ehrhart3.cpp:86-91): create, add the points in order, solve. -/
def addAll (s : St) : List (ℚ × ℚ) → Except Err St
  | [] => .ok s
  | p :: ps =>
    match addPoint s p.1 p.2 with
    | .error e => .error e
    | .ok s' => addAll s' ps

/-- create, add the points, solve. -/
def interpolate (degree : Nat) (pts : List (ℚ × ℚ)) : Except Err (List ℚ) :=
  match addAll (create degree) pts with
  | .error e => .error e
  | .ok s => solve s

end Latte.Interp
