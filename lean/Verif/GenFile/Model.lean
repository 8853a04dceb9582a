import Verif.PolySubst.Offline
import Verif.Common.Decimal

/-!
# Model of the generating function files

`code/latte/genFunction/maple.cpp`, and the parts of `code/latte/count.cpp` that write the files `.rat` (option `--multivariate-generating-function`) and
`.maple` (without memory saving).  Texts are lists of characters.
-/

namespace Verif.GenFile

open Verif.Barvinok (Vec Mat Cone Ntl Variant)
open Verif.ExpSubst (Fail)
open Verif.PolySubst (OffCone computePoints projectUpCones decomposeCones)
open Latte.Decimal

variable {n : ℕ}

/-- `x[i]`. -/
def varText (i : ℕ) : List Char := ['x', '['] ++ (printNat i ++ [']'])

/-- The loop of `writeTermToFile`, maple.cpp:32–40, over the entries with their indices, and what follows it (42): the second argument is `firstEntry==1`. -/
def termLoop : List (ℕ × ℤ) → Bool → List Char
  | [], first => if first = false then ['1'] else []
  | (i, z) :: l, first =>
    if z ≠ 0 then
      (if first = true then ['*'] else []) ++
      ((if z < 0 then varText i ++ ['^', '('] ++ printInt z ++ [')'] else []) ++
      ((if z = 1 then varText i else []) ++
      ((if z > 1 then varText i ++ ['^'] ++ printInt z else []) ++ termLoop l true)))
    else termLoop l first

/-- The entries of a vector with their indices. -/
def entries (v : Vec n) : List (ℕ × ℤ) := (List.finRange n).map fun i => (i.val, v i)

/-- `writeTermToFile`, maple.cpp:27–45. -/
def writeTerm (v : Vec n) : List Char := termLoop (entries v) false

/-- The points of the numerator, maple.cpp:59–64. -/
def writePoints : List (Vec n) → List Char
  | [] => []
  | v :: l => writeTerm v ++ ((if l ≠ [] then ['+'] else []) ++ writePoints l)

/-- The factors of the denominator, maple.cpp:71–78. -/
def writeRays : List (Vec n) → List Char
  | [] => []
  | v :: l => ['(', '1', '-'] ++ (writeTerm v ++ ([')'] ++ ((if l ≠ [] then ['*'] else []) ++ writeRays l)))

/-- `writeTermOfGeneratingFunctionToFile`, maple.cpp:47–82. -/
def writeCone (C : OffCone n) : List Char :=
  if C.coefficient = 0 then []
  else
    (if C.coefficient ≠ 1 then ['('] ++ printInt C.coefficient ++ [')', '*'] else []) ++
    ((if C.points.length > 1 then ['('] else []) ++
    (writePoints C.points ++
    ((if C.points.length > 1 then [')'] else []) ++
    (['/', '('] ++ (writeRays C.rays ++ [')'])))))

/-- The terms, maple.cpp:99–105: all but the last one are followed by `+`. The list is not empty. -/
def writeCones : OffCone n → List (OffCone n) → List Char
  | C, [] => writeCone C
  | C, D :: l => writeCone C ++ (['+'] ++ writeCones D l)

/-- `createGeneratingFunctionAsMapleInput`, maple.cpp:84–110: the text of the file `.maple`.  An empty list is dereferenced. -/
def mapleFile : List (OffCone n) → Except Fail (List Char)
  | [] => .error .undefined
  | C :: l => .ok (['g', 'F', ':', '='] ++ (writeCones C l ++ [';', '\n']))

/-- `GeneratingFunctionWritingConeConsumer::ConsumeCone`, maple.cpp:145–157, on one cone after the other: the text of the file `.rat`.  The first argument is
`first_term`. -/
def ratFile : Bool → List (OffCone n) → List Char
  | _, [] => []
  | first, C :: l =>
    if C.points ≠ [] then (if first = false then [' ', '+', ' '] else []) ++ (writeCone C ++ (['\n'] ++ ratFile false l))
    else ratFile first l

/-- `count --multivariate-generating-function`, count.cpp:472–497, without equations, from the vertex cones on: the decomposition, whose cones go through
`PointsInParallelepipedComputingConeTransducer` (piped.cpp:341–348) to the file in the order they are found.  (`decomposeCones` puts every cone in
front; the file is written only as far as the run gets when it stops early, which is not modelled.) -/
def countRat {m : ℕ} (N : Ntl (m + 1)) (X : Smith.Xgcd) (v : Variant) (irr : Cone (m + 1) → Fin (m + 1) → ℚ)
    (maxDet : ℤ) (fuel : ℕ) (cones : List ((Fin (m + 1) → ℚ) × List (Mat (m + 1)))) : Except Fail (List Char) := do
  let D ← decomposeCones N v irr maxDet cones
  let P ← computePoints X fuel D.reverse
  return ratFile true P

/-- The same with equations present: the cones go through `ProjectingUpConeTransducer` (ProjectUp.cpp:192–196) as well. -/
def countRatProjected {m k : ℕ} (p : Vec (k + 1)) (basis : Fin (m + 1) → Vec (k + 1)) (N : Ntl (m + 1)) (X : Smith.Xgcd)
    (v : Variant) (irr : Cone (m + 1) → Fin (m + 1) → ℚ) (maxDet : ℤ) (fuel : ℕ)
    (cones : List ((Fin (m + 1) → ℚ) × List (Mat (m + 1)))) : Except Fail (List Char) := do
  let D ← decomposeCones N v irr maxDet cones
  let P ← computePoints X fuel D.reverse
  let P ← projectUpCones p basis P
  return ratFile true P

/-- The file `.maple` of `count --memsave=no`, count.cpp:517–531 and 640–655, without equations. -/
def countMaple {m : ℕ} (N : Ntl (m + 1)) (X : Smith.Xgcd) (v : Variant) (irr : Cone (m + 1) → Fin (m + 1) → ℚ)
    (maxDet : ℤ) (fuel : ℕ) (cones : List ((Fin (m + 1) → ℚ) × List (Mat (m + 1)))) : Except Fail (List Char) := do
  let D ← decomposeCones N v irr maxDet cones
  let P ← computePoints X fuel D
  mapleFile P

/-- The same with equations present (count.cpp:644–651). -/
def countMapleProjected {m k : ℕ} (p : Vec (k + 1)) (basis : Fin (m + 1) → Vec (k + 1)) (N : Ntl (m + 1)) (X : Smith.Xgcd)
    (v : Variant) (irr : Cone (m + 1) → Fin (m + 1) → ℚ) (maxDet : ℤ) (fuel : ℕ)
    (cones : List ((Fin (m + 1) → ℚ) × List (Mat (m + 1)))) : Except Fail (List Char) := do
  let D ← decomposeCones N v irr maxDet cones
  let P ← computePoints X fuel D
  let P ← projectUpCones p basis P
  mapleFile P

/-- The triangle with corners `(0,0)`, `(1,0)`, `(0,1)`. -/
example : ratFile true [(⟨1, [![0, 0]], [![1, 0], ![0, 1]]⟩ : OffCone 2), ⟨-1, [![1, 0], ![2, 2]], [![-1, 0], ![-1, 2]]⟩] =
    "1/((1-x[0])*(1-x[1]))\n + (-1)*(x[0]+x[0]^2*x[1]^2)/((1-x[0]^(-1))*(1-x[0]^(-1)*x[1]^2))\n".toList := by decide +kernel

end Verif.GenFile
