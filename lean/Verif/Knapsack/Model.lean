import Mathlib.Data.Rat.Defs
import Mathlib.Data.Int.GCD

/-!
Model of parts of code/latte/top-knapsack/TopKnapsack.cpp: `binomial`, `BernoulliFirstKind::setBernoulli`,
`MobiusList`, the two gcd enumerations. `ZZ` is `Int`, `RationalNTL` is `ℚ` (justified by C01).
Functions whose recursion need not stop take a fuel argument; running out of fuel is `none`.
-/

namespace Latte.Knapsack

/-- TopKnapsack.cpp:1250-1251 loop `for (i = n; i >= n-k+1; --i) num *= i`, `c` iterations. -/
def fallLoop : Nat → Int → Int → Int
  | 0, _, num => num
  | c + 1, i, num => fallLoop c (i - 1) (num * i)

/-- TopKnapsack.cpp:1252-1253 loop `for (i = 1; i <= k; ++i) denum *= i`, `c` iterations. -/
def riseLoop : Nat → Int → Int → Int
  | 0, _, d => d
  | c + 1, i, d => riseLoop c (i + 1) (d * i)

/-- TopKnapsack.cpp:1240-1255 `binomial`. `n/k` is the truncating integer division of C++; compared with 0.5 it is
`< 0.5` iff it is `≤ 0`. -/
def binomial : Nat → Int → Int → Option Int
  | 0, _, _ => none
  | fuel + 1, n, k =>
    if k = n ∨ k = 0 then some 1
    else if n.tdiv k ≤ 0 then binomial fuel n (n - k)
    else some ((fallLoop k.toNat n 1).fdiv (riseLoop k.toNat 1 1))

/-- TopKnapsack.cpp:153-156 loop over `j < m`. -/
def bernLoop (B : List ℚ) (m : Nat) : Nat → Nat → ℚ → Option ℚ
  | 0, _, acc => some acc
  | c + 1, j, acc =>
    match binomial 2 m j with
    | none => none
    | some b => bernLoop B m c (j + 1) (acc + B.getD j 0 * ((b : ℚ) / ((m : Int) - j + 1 : Int)))

/-- TopKnapsack.cpp:146-160 loop over `m`, from the table `B[0..m-1]` on, `c` iterations. -/
def bernTable : Nat → Nat → List ℚ → Option (List ℚ)
  | 0, _, B => some B
  | c + 1, m, B =>
    if m > 1 ∧ m % 2 = 1 then bernTable c (m + 1) (B ++ [0])
    else
      match bernLoop B m m 0 0 with
      | none => none
      | some s => bernTable c (m + 1) (B ++ [-s + 1])

/-- TopKnapsack.cpp:139-166 `setBernoulli`. -/
def setBernoulli (k : Nat) : Option (List ℚ) :=
  (bernTable k 1 [1]).map fun B => if 1 ≤ k then B.set 1 (B.getD 1 0 * (-1)) else B

/-! ### Möbius list -/

/-- TopKnapsack.h `MobiusPair`. -/
structure MPair where
  gcd : Int
  mu : Int
  valid : Bool
deriving DecidableEq, Repr

/-- TopKnapsack.cpp:37-49 `insertGCD`. -/
def insertGCD (l : List MPair) (v : Int) : List MPair :=
  if l.any (fun p => p.gcd == v) then l else l ++ [⟨v, 0, false⟩]

/-- TopKnapsack.cpp:83-89 loop over `j`, `c` iterations left; `rec` is the recursive call on line 87. -/
def mobLoop (rec : List MPair → Nat → Option (List MPair)) :
    List MPair → Nat → Int → Nat → Nat → Int → Option (List MPair × Int)
  | l, _, _, 0, _, sum => some (l, sum)
  | l, i, g, c + 1, j, sum =>
    match l[j]? with
    | none => none
    | some q =>
      if i ≠ j ∧ g ∣ q.gcd then
        if q.valid then mobLoop rec l i g c (j + 1) (sum + q.mu)
        else
          match rec l j with
          | none => none
          | some l' => mobLoop rec l' i g c (j + 1) (sum + (l'.getD j ⟨0, 0, false⟩).mu)
      else mobLoop rec l i g c (j + 1) sum

/-- TopKnapsack.cpp:76-92 recursive `computeMobius(i)`. -/
def mobRec : Nat → List MPair → Nat → Option (List MPair)
  | 0, _, _ => none
  | fuel + 1, l, i =>
    match l[i]? with
    | none => none
    | some p =>
      if p.valid then some l
      else
        match mobLoop (mobRec fuel) l i p.gcd l.length 0 0 with
        | none => none
        | some (l', sum) => some (l'.set i ⟨p.gcd, 1 - sum, true⟩)

/-- TopKnapsack.cpp:54-69 `computeMobius()`: reset, find the (last) index of gcd 1, recurse; inner `none` = exception
"gcd of entire list is not one". -/
def computeMobius (fuel : Nat) (l : List MPair) : Option (Option (List MPair)) :=
  let l0 := l.map fun p => (⟨p.gcd, 0, false⟩ : MPair)
  match (List.range l.length).reverse.find? (fun i => (l0.getD i ⟨0, 0, false⟩).gcd == 1) with
  | none => some none
  | some i => (mobRec fuel l0 i).map some

/-! ### gcd enumeration -/

/-- TopKnapsack.cpp:1287-1293 `push_back(g)` followed by the chain of swaps towards the front, on the reversed list:
the new element moves past all larger ones. -/
def bubbleR : List Int → Int → List Int
  | [], g => [g]
  | x :: xs, g => if x > g then x :: bubbleR xs g else g :: x :: xs

/-- TopKnapsack.cpp:1287-1293, 1302-1308 insertion into the sorted vector. -/
def insertBack (l : List Int) (g : Int) : List Int := (bubbleR l.reverse g).reverse

/-- TopKnapsack.cpp:1281-1297 loop over `j` while the vector grows. `std::binary_search` on the vector is membership
(its precondition, sortedness, is proved invariant). -/
def jLoop (a : Int) : Nat → Nat → List Int → Option (List Int)
  | 0, _, _ => none
  | f + 1, j, out =>
    match out[j]? with
    | none => some out
    | some x =>
      let g : Int := (Int.gcd x a : Int)
      jLoop a f (j + 1) (if out.contains g then out else insertBack out g)

/-- TopKnapsack.cpp:1277-1310 loop over `i`. -/
def iLoop (fuel : Nat) : List Int → List Int → Option (List Int)
  | [], out => some out
  | a :: as, out =>
    match jLoop a fuel 0 out with
    | none => none
    | some out' => iLoop fuel as (if out'.contains a then out' else insertBack out' a)

/-- TopKnapsack.cpp:1274-1325 `everyGCDFromEntireList`; `k ≤ N`, `alpha.length = N + 1`. -/
def everyGCDFromEntireList (fuel : Nat) (alpha : List Int) (k : Nat) (gcds : List MPair) : Option (List MPair) :=
  (iLoop fuel alpha []).map fun out =>
    out.foldl (fun gs o => if (alpha.countP fun a => a.emod o == 0) ≥ alpha.length - k then insertGCD gs o else gs) gcds

/-- TopKnapsack.cpp:1364-1378 one step of the subset odometer on `sublist[i..]` with bound `b = N+1-i`: the first
`while` increments along the array, the second resets on the way back; running past the end of the array is `none`. -/
def stepSub : Nat → List Nat → Option (List Nat)
  | _, [] => none
  | b, x :: xs =>
    if x + 1 > b then
      match stepSub (b - 1) xs with
      | none => none
      | some [] => none
      | some (y :: ys) => some ((y + 1) :: y :: ys)
    else some ((x + 1) :: xs)

/-- TopKnapsack.cpp:1356-1358 gcd of the elements with (1-based) indices in `sublist`; `none` if an index is out of
range. -/
def subGcd (alpha : List Int) : List Nat → Option Int
  | [] => none
  | x :: xs =>
    if x = 0 then none else
    match alpha[x - 1]? with
    | none => none
    | some a0 => xs.foldl (fun g y => g.bind fun g => if y = 0 then none else alpha[y - 1]?.map fun a => (Int.gcd g a : Int)) (some a0)

/-- TopKnapsack.cpp:1353-1381 loop; `c = limit - counter` further steps. -/
def subLoop (alpha : List Int) : Nat → List Nat → List MPair → Option (List MPair)
  | c, s, gcds =>
    match subGcd alpha s with
    | none => none
    | some g =>
      match c with
      | 0 => some (insertGCD gcds g)
      | c + 1 =>
        match stepSub alpha.length s with
        | none => none
        | some s' => subLoop alpha c s' (insertGCD gcds g)

/-- TopKnapsack.cpp:1332-1383 `everyGCDFromSubsets(k)`, `1 ≤ k ≤ N+1`. -/
def everyGCDFromSubsets (alpha : List Int) (k : Nat) (gcds : List MPair) : Option (List MPair) :=
  if k = alpha.length then some (insertGCD gcds 1)
  else
    match binomial 2 alpha.length k with
    | none => none
    | some limit =>
      if limit ≤ 0 then some gcds
      else subLoop alpha (limit.toNat - 1) ((List.range k).map fun i => k - i) gcds

/-- TopKnapsack.cpp:1264-1265 loop over the sizes in `findGCDs` (subset method), `c` further iterations from `i`. -/
def subsetsLoop (alpha : List Int) : Nat → Nat → List MPair → Option (List MPair)
  | 0, _, gcds => some gcds
  | c + 1, i, gcds =>
    match everyGCDFromSubsets alpha (alpha.length - i) gcds with
    | none => none
    | some gcds' => subsetsLoop alpha c (i + 1) gcds'

/-- TopKnapsack.cpp:1260-1268 `findGCDs`. -/
def findGCDs (bySubsets : Bool) (fuel : Nat) (alpha : List Int) (k : Nat) (gcds : List MPair) : Option (List MPair) :=
  if bySubsets then subsetsLoop alpha (k + 1) 0 gcds else everyGCDFromEntireList fuel alpha k gcds

end Latte.Knapsack
