import Verif.Barvinok.Model
import Mathlib.Data.Nat.Size

/-!
# Moving the vertex of a cone off all lattice hyperplanes (model)

`code/latte/Irrational.cpp`.  Rational vectors are given by their values; `scaleRationalVectorToInteger` (rational.cpp
818-828, 798-814) is computed for the reduced fractions (the tests below only depend on the values).  The vectors are
indexed by `Fin n`; facets of a cone with any number of facets are a list.  The function `estimate_barvinok_depth` (217-239,
floating point) and the external LP solver are parameters.
-/

namespace Verif.Irrational

open Verif.Barvinok

variable {n : ℕ}

/-- `integer_scale_factor` (rational.cpp 800-806): the least common multiple of the denominators. -/
def scaleDen (v : Fin n → ℚ) : ℤ := (List.finRange n).foldl (fun (s : ℤ) i => (Int.lcm s (v i).den : ℤ)) 1

/-- `integer_scale` (rational.cpp 807-809). -/
def scaleNum (v : Fin n → ℚ) : Vec n := fun i => (v i).num * (scaleDen v / (v i).den)

/-- Irrational.cpp 399-402 (and 53-59, 115-117): `InnerProduct` with the scaled vertex, then NTL's `div` by its
denominator, which rounds down. -/
def interval (f : Vec n) (v : Fin n → ℚ) : ℤ := (∑ k, f k * scaleNum v k) / scaleDen v

/-- The condition asserted by `assertConesIntegerEquivalent` (Irrational.cpp 383-408). -/
def integerEquivalent (F : List (Vec n)) (v w : Fin n → ℚ) : Bool := F.all fun f => interval f v == interval f w

/-- `isConeIrrational` (Irrational.cpp 351-370) with `InnerProductModulo` (latte_ntl.cpp 27-33). -/
def irrational (F : List (Vec n)) (v : Fin n → ℚ) : Bool :=
  F.all fun f => (∑ k, scaleNum v k * f k) % scaleDen v != 0

/-- A matrix as the list of its rows. -/
def rowList (F : Mat n) : List (Vec n) := (List.finRange n).map F

/-- `createFacetMatrix2` (convert.cpp 82-101); `none` is the failing assertion. -/
def createFacetMatrix2 (C : Cone n) (F : Mat n) : Option (Mat n) :=
  if ∀ i, |C.determinant| % C.facetDivisors i = 0 then
    some fun i j => F i j * (|C.determinant| / C.facetDivisors i)
  else none

/-- The 1-norm of a row (Irrational.cpp 82-84, 118-120). -/
def norm1 (f : Vec n) : ℤ := ∑ j, |f j|

/-- `max_dual_1_norm` (Irrational.cpp 78-87). -/
def maxNorm1 (F : Mat n) : ℤ :=
  (List.finRange n).foldl (fun (m : ℤ) i => if norm1 (F i) > m then norm1 (F i) else m) 0

/-- A stability cube: center, and half length as a fraction. -/
structure Cube (n : ℕ) where
  center : Fin n → ℚ
  lengthNum : ℤ
  lengthDen : ℤ

/-- `computeConeStabilityCube_simplicial` (Irrational.cpp 35-99) for a cone with facets `F`; `none` is a failing
assertion. -/
def simplicialCube (C : Cone n) (F : Mat n) : Option (Cube n) :=
  match createFacetMatrix2 C F with
  | none => none
  | some dual =>
    let bottom : Vec n := fun i => interval (dual i) C.vertex
    let centerNum : Vec n := fun k => ∑ i, -(C.rays i k) * (bottom i * 2 + 1)
    let center : Fin n → ℚ := fun k => (centerNum k : ℚ) / ((2 * |C.determinant| : ℤ) : ℚ)
    if integerEquivalent (rowList F) C.vertex center then some ⟨center, 1, 2 * maxNorm1 dual⟩ else none

/-- One inequality `b + ⟨a, x⟩ + c·λ ≥ 0` of the linear program. -/
structure Ineq (n : ℕ) where
  b : ℤ
  a : Vec n
  c : ℤ

/-- The two inequalities made for a facet (Irrational.cpp 121-136). -/
def facetIneqs (v : Fin n → ℚ) (f : Vec n) : List (Ineq n) :=
  [⟨interval f v + 1, fun i => -f i, -norm1 f⟩, ⟨-interval f v, f, -norm1 f⟩]

/-- A solver for the linear programs "maximize λ subject to the inequalities" (vertices/cdd.cpp 1215-1236, an external
program): the values of `x` and `λ` it reports. -/
abbrev Solver (n : ℕ) := List (Ineq n) → (Fin n → ℚ) × ℚ

/-- `computeConeStabilityCube_general` (Irrational.cpp 101-153).  The list is built by prepending, which is irrelevant
for its solutions; the fraction `λ` is taken in lowest terms. -/
def generalCube (lp : Solver n) (F : List (Vec n)) (v : Fin n → ℚ) : Cube n :=
  let r := lp (F.flatMap (facetIneqs v))
  ⟨r.1, r.2.num, r.2.den⟩

/-- `simplifyConeStabilityCube` (Irrational.cpp 159-179); `none` is the division by zero.  `NumBits` is `Nat.size` of the
absolute value. -/
def simplifyCube (c : Cube n) : Option (Cube n) :=
  if c.lengthNum = 0 then none
  else
    let m := Int.fdiv c.lengthDen c.lengthNum + 1
    let k := Nat.size m.natAbs
    some
      { center := fun i => ((((c.center i).num * 2 ^ (k + 1)) / ((c.center i).den : ℤ) : ℤ) : ℚ) / ((2 ^ (k + 1) : ℤ) : ℚ)
        lengthNum := 1
        lengthDen := 2 ^ k }

/-- The largest absolute value of a ray coordinate (Irrational.cpp 275-284). -/
def maxCoord (rays : List (Vec n)) : ℤ :=
  rays.foldl (fun m r => (List.finRange n).foldl (fun (m : ℤ) i => if |r i| > m then |r i| else m) m) 0

/-- `k` (Irrational.cpp 289-294), from the estimated depth and the rays. -/
def bitsOfM (n depth : ℕ) (c : ℤ) : ℕ := Nat.size (2 * ((n : ℤ) ^ depth * c) ^ (n - 1)).natAbs

/-- The new vertex (Irrational.cpp 252-320) from the simplified cube and `k`. -/
def newVertex (c : Cube n) (k : ℕ) : Fin n → ℚ :=
  let centerNum := scaleNum c.center
  let centerDen := scaleDen c.center
  let irrNum : Vec n := fun i => c.lengthNum * 2 ^ ((n - 1 - i.val) * (k + 2))
  let irrDen := c.lengthDen * 2 ^ (n * (k + 2) - (k + 1) + 1)
  let common := centerDen * (irrDen / (Int.gcd centerDen irrDen : ℤ))
  fun i => ((centerNum i * (common / centerDen) + irrNum i * (common / irrDen) : ℤ) : ℚ) / (common : ℚ)

/-- The end of `irrationalizeCone` (Irrational.cpp 334-340): the assertions. -/
def checked (F : List (Vec n)) (v w : Fin n → ℚ) : Option (Fin n → ℚ) :=
  if integerEquivalent F v v ∧ integerEquivalent F v w ∧ irrational F w then some w else none

/-- `irrationalizeCone` (Irrational.cpp 241-341) for a simplicial cone with the facets computed by LattE (lines 185-197;
if there are no facets yet they are computed); `none` is a failing assertion. -/
def irrationalizeSimplicial (depth : Cone n → ℕ) (C : Cone n) : Option (Cone n) :=
  match (if C.facets.isSome then some C else computeDetAndFacets C) with
  | none => none
  | some C =>
    match C.facets with
    | none => none
    | some F =>
      match (simplicialCube C F).bind simplifyCube with
      | none => none
      | some c =>
        match checked (rowList F) C.vertex (newVertex c (bitsOfM n (depth C) (maxCoord (rowList C.rays)))) with
        | none => none
        | some w => some { C with vertex := w }

/-- `irrationalizeCone` (Irrational.cpp 241-341) for a cone given by any lists of rays and facets without divisors
(lines 198-205): the new vertex. -/
def irrationalizeGeneral (lp : Solver n) (depth : ℕ) (rays F : List (Vec n)) (v : Fin n → ℚ) : Option (Fin n → ℚ) :=
  match simplifyCube (generalCube lp F v) with
  | none => none
  | some c => checked F v (newVertex c (bitsOfM n depth (maxCoord rays)))

end Verif.Irrational
