/-!
Model of the list-of-vectors helpers of code/latte/ramon.cpp. A `vec_ZZ` is a list of integers, a `listVector*` chain is a
list. Reading an entry past the end of a vector is undefined behaviour and is `none`.
-/

namespace Latte.Lists

/-- ramon.cpp:66-72 loop of `isVectorEqualToVector` from index `i`, with `k` comparisons left. -/
def eqLoop (v w : List Int) : Nat → Nat → Option Bool
  | _, 0 => some true
  | i, k + 1 =>
    match v[i]?, w[i]? with
    | some a, some b => if a = b then eqLoop v w (i + 1) k else some false
    | _, _ => none

/-- ramon.cpp:66-72 `isVectorEqualToVector`. -/
def vecEq (v w : List Int) (n : Nat) : Option Bool := eqLoop v w 0 n

/-- ramon.cpp:75-84 `isVectorInListVector(v, LIST, numOfVars)`. -/
def inList3 (v : List Int) (n : Nat) : List (List Int) → Option Bool
  | [] => some false
  | w :: ws =>
    match vecEq v w n with
    | none => none
    | some true => some true
    | some false => inList3 v n ws

/-- ramon.cpp:89-101 `isVectorInListVector(v, list)`. -/
def inList2 (v : List Int) : List (List Int) → Option Bool
  | [] => some true
  | w :: ws =>
    match vecEq v w v.length with
    | none => none
    | some false => some false
    | some true => inList2 v ws

/-- ramon.cpp:142-163 loop of `isEqual`. -/
def eqListLoop (second : List (List Int)) : List (List Int) → Option Bool
  | [] => some true
  | v :: vs =>
    match inList2 v second with
    | none => none
    | some false => some false
    | some true => eqListLoop second vs

/-- ramon.cpp:142-163 `isEqual`. -/
def isEqual (first second : List (List Int)) : Option Bool :=
  if first.length ≠ second.length then some false else eqListLoop second first

end Latte.Lists
