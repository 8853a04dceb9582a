import Verif.Smith.Model
import Verif.Barvinok.Model
import Verif.Enum.Model

/-!
# Lattice points of the fundamental parallelepiped (model)

Models `code/latte/genFunction/piped.cpp`: `PointsInParallelepipedGenerator` (constructor,
`GetMaxMultipliers_int`, `GeneratePoint`), `pointsInParallelepiped`,
`PointsScalarProductsGenerator`, `computeLatticePointsScalarProducts`; with the Smith form of
`Verif.Smith` (the default `--smith-form=ilio`), the cone record of `Verif.Barvinok` and the
tuple enumerator of `Verif.Enum`.

NTL's `/`, `div`, `%` round towards minus infinity; for a positive divisor they are Lean's `/`
and `%`, in general `Int.fdiv`.
-/

namespace Verif.Piped

open Verif.Barvinok (Cone Mat Vec)

variable {m : ℕ}

/-- What the program needs of the cone and of its scaled vertex
(`scaleRationalVectorToInteger`, C06): `vertex = vScaled / vScale`. -/
structure Input (m : ℕ) where
  rays : Mat (m + 1)
  facets : Mat (m + 1)
  facetDivisors : Vec (m + 1)
  determinant : ℤ
  vScaled : Vec (m + 1)
  vScale : ℤ

/-- The data members of `PointsInParallelepipedGenerator` (piped.h lines 33–45). -/
structure Gen (m : ℕ) where
  maxMultipliers : Vec (m + 1)
  bInv : Mat (m + 1)
  beta : Vec (m + 1)
  betaMod : Vec (m + 1)
  common : ℤ
  scaleFactors : Vec (m + 1)
  tau : Mat (m + 1)

/-- Outcome of a run: a value, a failed assertion or `abort()`, an array access out of bounds, or
the fuel of the model ran out. -/
inductive Out (α : Type) where
  | ok (a : α)
  | abort
  | undefined
  | fuel

/-- The multipliers and `B_inv` (piped.cpp lines 112–163): trivial for determinant ±1, otherwise
from the Smith form of the matrix `U` with the rays as columns; `none` is the failed assertion that
the division of `U * C` by the diagonal leaves a remainder. -/
def basis (X : Smith.Xgcd) (C : Input m) : Option (Vec (m + 1) × Mat (m + 1)) :=
  let U : Mat (m + 1) := C.rays.transpose
  if |C.determinant| = 1 then
    some (fun _ => 1, fun i j => C.determinant * U i j)
  else
    let snf := Smith.smith X U
    let UC := U * snf.R
    if ∀ i j, UC i j % snf.A j j = 0 then
      some (fun j => snf.A j j, fun i j => UC i j / snf.A j j)
    else none

/-- The rest of the constructor (lines 164–210). -/
def mkGen (C : Input m) (b : Vec (m + 1) × Mat (m + 1)) : Gen m :=
  let beta : Vec (m + 1) := fun i => (∑ k, C.vScaled k * C.facets i k).fdiv C.vScale
  { maxMultipliers := b.1
    bInv := b.2
    beta := beta
    betaMod := fun i => beta i % C.facetDivisors i
    common := |C.determinant|
    scaleFactors := fun i => |C.determinant| / C.facetDivisors i
    tau := fun i j => (∑ k, b.2 k j * C.facets i k) % C.facetDivisors i }

/-- `compute_scaled_fundamental_multiplier_from_multipliers` (lines 57–91). -/
def scaledMultiplier (C : Input m) (g : Gen m) (mult : Vec (m + 1)) (i : Fin (m + 1)) : ℤ :=
  (g.betaMod i - ∑ j, g.tau i j * mult j) % C.facetDivisors i - g.beta i

/-- `GeneratePoint` (lines 236–276). -/
def generatePoint (C : Input m) (g : Gen m) (mult : Vec (m + 1)) : Vec (m + 1) := fun k =>
  (∑ i, scaledMultiplier C g mult i * g.scaleFactors i * C.rays i k) / g.common

/-- `GeneratePointScalarProduct` (lines 383–404), with the products of the constructor (lines
369–380); `none` is the failed assertion. -/
def generateScalarProduct (C : Input m) (g : Gen m) (generic : Vec (m + 1)) (mult : Vec (m + 1)) :
    Option ℤ :=
  let r := ∑ i, scaledMultiplier C g mult i *
    (g.scaleFactors i * ∑ k, generic k * C.rays i k)
  if r % g.common = 0 then some (r / g.common) else none

/-- `INT_MAX` of a 32 bit `int`. -/
def intMax : ℤ := 2147483647

/-- `GetMaxMultipliers_int` (lines 219–234) as the array handed to `IntCombEnum`; `none` is
`abort()`. -/
def maxInt (g : Gen m) : Option (ℕ → ℕ) :=
  if ∀ i, g.maxMultipliers i ≤ intMax then
    some fun i => if h : i < m + 1 then (g.maxMultipliers ⟨i, h⟩).toNat else 0
  else none

/-- The array of the enumerator read as multipliers. -/
def toMult (x : List ℕ) : Vec (m + 1) := fun i => ((x.getD i 0 : ℕ) : ℤ)

/-- The `while ((next = iter_comb.getNext()))` loop (lines 328–331): each tuple is mapped and put in
front of the list (`appendVectorToListVector`, ramon.cpp). -/
def loop {α : Type} (f : List ℕ → Option α) : ℕ → Latte.Enum.St → List α → Out (List α)
  | 0, _, _ => .fuel
  | k + 1, s, acc =>
    match Latte.Enum.getNext s with
    | .done => .ok acc
    | .undefined => .undefined
    | .out s' v =>
      match f v with
      | none => .abort
      | some a => loop f k s' (a :: acc)

/-- `pointsInParallelepiped` (lines 315–336). -/
def points (X : Smith.Xgcd) (C : Input m) (fuel : ℕ) : Out (List (Vec (m + 1))) :=
  match basis X C with
  | none => .abort
  | some b =>
    let g := mkGen C b
    match maxInt g with
    | none => .abort
    | some u =>
      loop (fun x => some (generatePoint C g (toMult x))) fuel
        (Latte.Enum.decrementUpperBound (Latte.Enum.create u (m + 1))) []

/-- `computeLatticePointsScalarProducts` for a cone whose points are not yet listed (lines 406–453):
the array has `|det|` cells which are filled from the front; a write beyond it is `undefined`. The
list is kept reversed in the loop. -/
def scalarProducts (X : Smith.Xgcd) (C : Input m) (generic : Vec (m + 1)) (fuel : ℕ) :
    Out (List ℤ) :=
  if |C.determinant| > intMax then .abort
  else
    match basis X C with
    | none => .abort
    | some b =>
      let g := mkGen C b
      match maxInt g with
      | none => .abort
      | some u =>
        match loop (fun x => generateScalarProduct C g generic (toMult x)) fuel
            (Latte.Enum.decrementUpperBound (Latte.Enum.create u (m + 1))) [] with
        | .ok l => if (l.length : ℤ) ≤ |C.determinant| then .ok l.reverse else .undefined
        | r => r

end Verif.Piped
