import Verif.Barvinok.Model
import Verif.Enum.Model

/-!
# C98: boundary triangulation (model)

The second part of `code/latte/triangulation/BoundaryTriangulation.cpp`: from simplicial cones that triangulate the boundary of a cone, find a further ray and complete the cones with it.
The dimension is `n + 1`; a boundary cone is given by its `n` rays (line 67).
-/

namespace Verif.Boundary

open Verif.Barvinok Matrix

variable {n : ℕ}

/-- The matrix with the rays of a boundary cone, and a last row. -/
def withLast (b : Fin n → Vec (n + 1)) (w : Vec (n + 1)) : Mat (n + 1) := Fin.snoc b w

/-- `alpha_basis`, lines 70–83: the first unit vector that completes the rays to a basis; `none` is the failing assertion of line 83. -/
def completion (b : Fin n → Vec (n + 1)) : Option (Mat (n + 1)) :=
  ((List.finRange (n + 1)).find? fun j => (withLast b (Pi.single j 1)).det ≠ 0).map fun j => withLast b (Pi.single j 1)

/-- `alpha_basis`, lines 84–91: a column of `alpha`.  NTL's `inv(d, X, A)` gives the adjugate. -/
def alphaColumn (R : Mat (n + 1)) : Vec (n + 1) := fun s => R.adjugate s (Fin.last n)

/-- `alpha_basis`, lines 93–102: a column of `F`. -/
def fColumn (R : Mat (n + 1)) (l : Fin n) : Vec (n + 1) := fun s =>
  R.adjugate s (Fin.last n) * R.adjugate (Fin.last n) l.castSucc - R.adjugate s l.castSucc * R.adjugate (Fin.last n) (Fin.last n)

/-- All completed matrices (lines 140–142). -/
def completions : List (Fin n → Vec (n + 1)) → Option (List (Mat (n + 1)))
  | [] => some []
  | b :: l =>
    match completion b with
    | none => none
    | some R =>
      match completions l with
      | none => none
      | some Rs => some (R :: Rs)

/-- NTL's `LLL` for the matrix `alpha`, given by its columns: the transformation and the rank (line 152). -/
abbrev Lll (n : ℕ) := List (Vec (n + 1)) → Mat (n + 1) × ℕ

/-- An entry of `multi * U * M` for a column of `M` (lines 158–159, 194–197). -/
def comb (U : Mat (n + 1)) (multi : Vec (n + 1)) (col : Vec (n + 1)) : ℤ := ∑ i, multi i * ∑ s, U i s * col s

/-- `singularity_avoiding`, lines 107–127. -/
def avoiding (Rs : List (Mat (n + 1))) (U : Mat (n + 1)) (multi : Vec (n + 1)) : Bool :=
  Rs.all fun R => decide (comb U multi (alphaColumn R) = 0) || (List.finRange n).all fun l => decide (comb U multi (fColumn R l) ≠ 0)

/-- The tuples that `IntCombEnum` delivers for the bounds `2 * max_coeff`, up to the end marker (lines 180–187); there are `(2 max_coeff + 1) ^ numOfVars` (C12). -/
def tuples (m c : ℕ) : List (List ℕ) :=
  (List.range ((2 * c + 1) ^ m)).filterMap fun k => (Latte.Enum.answers (Latte.Enum.create (fun _ => 2 * c) m) k).join

/-- The multipliers (lines 188–193). -/
def multipliers (m c : ℕ) (v : List ℕ) : Vec m := fun j => (v.getD j 0 : ℤ) - c

/-- The loop over `max_coeff` (lines 177–210), from `c` on. -/
def search (Rs : List (Mat (n + 1))) (U : Mat (n + 1)) : ℕ → ℕ → Option (Vec (n + 1))
  | 0, _ => none
  | fuel + 1, c =>
    match ((tuples (n + 1) c).map (multipliers (n + 1) c)).find? fun multi =>
        (List.finRange (n + 1)).any (fun j => decide (|multi j| = (c : ℤ))) && avoiding Rs U multi with
    | some multi => some multi
    | none => search Rs U fuel (c + 1)

/-- How `construct_interior_vector` ends: a failed assertion, no result in the given number of rounds of the loop without end, or the vector and the determinants. -/
inductive Result (n : ℕ) where
  | abort
  | fuel
  | found (w : Vec (n + 1)) (dets : List ℤ)
  deriving DecidableEq

/-- `construct_interior_vector`, lines 130–213. -/
def construct (lll : Lll n) (fuel : ℕ) (B : List (Fin n → Vec (n + 1))) : Result n :=
  match completions B with
  | none => .abort
  | some Rs =>
    let r := lll (Rs.map alphaColumn)
    if r.2 ≠ n + 1 then .abort
    else
      match search Rs r.1 fuel 1 with
      | none => .fuel
      | some multi => .found (multi ᵥ* r.1) (Rs.map fun R => comb r.1 multi (alphaColumn R))

/-- `complete_boundary_triangulation_of_cone_with_subspace_avoiding_facets`, lines 265–284 and 296–303: the new ray is put in front; cones with determinant zero are dropped; the order is
reversed.  The two dualizations of lines 286–294 (C84, C90) only make the rays primitive and are left out. -/
def complete (w : Vec (n + 1)) : List (Fin n → Vec (n + 1)) → List ℤ → List (Mat (n + 1)) → List (Mat (n + 1))
  | b :: B, d :: dets, out => complete w B dets (if d ≠ 0 then Fin.cons w b :: out else out)
  | _, _, out => out

end Verif.Boundary
