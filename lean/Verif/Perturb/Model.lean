import Mathlib.Tactic.Linarith
import Mathlib.Tactic.Ring
import Mathlib.Algebra.Order.Group.Unbundled.Int

/-!
# Perturbation of the objective in the integer programming code

`Calculate_Pertubation` (code/latte/ConeInfo.cpp 1410-1499), called by `SolveIP` (code/latte/IntegralHull.cpp 195) when
the objective vanishes on some ray.  `vec_ZZ` and rays are lists of integers, a cone is the list of its rays; `rand()`
is an arbitrary sequence of natural numbers, two for each coordinate in the order of evaluation chosen by the compiler
(the two factors are given as a pair).
-/

namespace Verif.Perturb

/-- code/latte/ConeInfo.cpp 1459-1465: one step of the search of the maximal coordinate, as written (the second branch
stores the coordinate itself, not its absolute value). -/
def maxStep (mx x : ℤ) : ℤ :=
  let mx := if 0 ≤ x ∧ mx < x then x else mx
  if x ≤ 0 ∧ mx < -1 * x then x else mx

/-- code/latte/ConeInfo.cpp 1446-1475: `Maximum_Coordinate` after the loops over cones, rays and coordinates. -/
def maximumCoordinate (cones : List (List (List ℤ))) : ℤ :=
  cones.foldl (fun mx rays => rays.foldl (fun mx ray => ray.foldl maxStep mx) mx) 0

/-- code/latte/ConeInfo.cpp 1477-1483: `M_Value`. -/
def mValue (cones : List (List (List ℤ))) (modValue n : ℕ) : ℤ :=
  (modValue : ℤ) * maximumCoordinate cones * n * 2 + 1

/-- code/latte/ConeInfo.cpp 1494: the term added to one coordinate, from two values of `rand()`. -/
def noise (modValue : ℕ) (d : ℕ × ℕ) : ℤ :=
  ((d.1 % modValue : ℕ) : ℤ) * (((d.2 % 2 : ℕ) : ℤ) * 2 - 1)

/-- code/latte/ConeInfo.cpp 1410-1499: `Calculate_Pertubation`. -/
def calculatePertubation (cones : List (List (List ℤ))) (cost : List ℤ) (modValue n : ℕ) (draws : List (ℕ × ℕ)) :
    List ℤ :=
  List.zipWith (fun c d => mValue cones modValue n * c + noise modValue d) cost draws

end Verif.Perturb
