import Mathlib.Data.Int.GCD
import Mathlib.Data.List.Basic

/-!
Model of `class rationalVector` (code/latte/rational.h:94-160, rational.cpp:33-136, 662-700, 796-848).
The two parallel `vec_ZZ` members (whose lengths are always equal) are one list of (numerator, denominator).
NTL's `/` on `ZZ` is floor division `Int.fdiv`; division by zero is an NTL error and is `none` here.
Index errors are `none`.
-/

namespace Latte.RatVec

/-- rational.h:97-101 members of `rationalVector`. -/
structure RVec where
  ents : List (Int × Int)
  computed : Bool
  iscale : List Int
  factor : Int

/-- rational.cpp:662-665 `lcm`. -/
def lcmZ (a b : Int) : Int := a * (b.fdiv (Int.gcd a b : Int))

/-- rational.cpp:803-815 `compute_integer_scale`. -/
def compute (v : RVec) : RVec :=
  let f := v.ents.foldl (fun f e => lcmZ f e.2) 1
  { v with factor := f, iscale := v.ents.map (fun e => e.1 * (f.fdiv e.2)), computed := true }

/-- rational.cpp:33-44 zero vector. -/
def ofDim (n : Nat) : RVec := ⟨List.replicate n (0, 1), false, [], 0⟩

/-- rational.cpp:46-57 integer vector over one denominator. -/
def ofInts (num : List Int) (den : Int) : RVec := ⟨num.map (fun n => (n, den)), true, num, den⟩

/-- rational.cpp:59-78 from numerators and denominators (or a vector of `RationalNTL`). -/
def ofEntries (e : List (Int × Int)) : RVec := ⟨e, false, [], 0⟩

/-- rational.h:122-130 `set_entry`. -/
def setEntry (v : RVec) (i : Nat) (n d : Int) (lazy : Bool) : Option RVec :=
  if i < v.ents.length then
    let v' := { v with ents := v.ents.set i (n, d) }
    some (if lazy then { v' with computed := false } else compute v')
  else none

/-- rational.h:141-145 `set_numerator`. -/
def setNumerator (v : RVec) (i : Nat) (n : Int) : Option RVec :=
  v.ents[i]?.map fun e => compute { v with ents := v.ents.set i (n, e.2) }

/-- rational.h:146-150 `set_denominator`. -/
def setDenominator (v : RVec) (i : Nat) (d : Int) : Option RVec :=
  v.ents[i]?.map fun e => compute { v with ents := v.ents.set i (e.1, d) }

/-- rational.cpp:836-845 loop body of `canonicalizeRationalVector` on one entry. -/
def canonEntry (e : Int × Int) : Int × Int :=
  let g : Int := Int.gcd e.1 e.2
  if g ≠ 1 then (e.1.fdiv g, e.2.fdiv g) else e

/-- rational.cpp:831-848 `canonicalizeRationalVector`. -/
def canonicalize (v : RVec) : RVec :=
  let changed := v.ents.any (fun e => (Int.gcd e.1 e.2 : Int) ≠ 1)
  let v' := { v with ents := v.ents.map canonEntry, computed := v.computed && !changed }
  if v'.computed then v' else compute v'

/-- rational.cpp:85-94 `scalarMultiplication`. -/
def scalarMul (v : RVec) (n d : Int) : RVec :=
  canonicalize { v with ents := v.ents.map (fun e => (e.1 * n, e.2 * d)), computed := false }

/-- rational.cpp:817-828 `scaleRationalVectorToInteger` (returns the vector, the factor and the updated cache). -/
def scale (v : RVec) : List Int × Int × RVec :=
  let v' := if v.computed then v else compute v
  (v'.iscale, v'.factor, v')

/-- rational.cpp:690-693 gcd of all entries of a non-empty vector, absolute value. -/
def gcdAll : List Int → Int
  | [] => 0
  | x :: xs => ((xs.foldl (fun g y => (Int.gcd g y : Int)) x).natAbs : Int)

/-- rational.cpp:669-700 `constructRay`; `none` for the empty vector (`result[0]` out of range), for unequal lengths
(assert) and for division by a zero gcd. -/
def constructRay (v w : RVec) : Option (List Int) :=
  let (vi, vs, _) := scale v
  let (wi, ws, _) := scale w
  let common := lcmZ vs ws
  let wf := common.fdiv ws
  let vf := common.fdiv vs
  let r := List.zipWith (fun x y => wf * x - vf * y) wi vi
  if r = [] ∨ v.ents.length ≠ w.ents.length then none
  else
    let g := gcdAll r
    if g = 0 then none
    else if g ≠ 1 then some (r.map (fun x => x.fdiv g)) else some r

/-- rational.cpp:124-133 inner loop of `normalizeRationalVector` for a fixed `d`, on entry `j`. -/
def normEntry (d : Int) (e : Int × Int) : Int × Int :=
  let g : Int := Int.gcd d e.2
  (e.1 * (d.fdiv g), e.2.fdiv g)

/-- rational.cpp:121-134 outer loop of `normalizeRationalVector`, from index `i` on, with `k` iterations left. -/
def normLoop : Nat → Nat → List (Int × Int) → List (Int × Int)
  | 0, _, es => es
  | k + 1, i, es =>
    let d := (es.getD i (0, 1)).2
    normLoop k (i + 1) (if d > 1 then es.map (normEntry d) else es)

/-- rational.cpp:116-136 `normalizeRationalVector` (each `set_denominator`/`set_numerator` recomputes the cache; the
last one leaves it computed for the final entries; if nothing was set the cache is unchanged). -/
def normalize (v : RVec) : RVec :=
  let es := normLoop v.ents.length 0 v.ents
  if v.ents.any (fun e => e.2 > 1) then compute { v with ents := es } else { v with ents := es }

end Latte.RatVec
