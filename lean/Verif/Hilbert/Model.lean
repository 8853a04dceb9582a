import Verif.Piped.Props
import Verif.Regular.Spec

/-!
# C101: Hilbert bases from rays (model)

`handle_cone`, `RecursiveNormalizer`, `insert_hilbert_basis_element`, `enumerate_simplicial_cone_with_latte` and what `normalize_main` does with a cone, in `code/latte/normalize/normalize.cpp`
(the program hilbert-from-rays), with `--no-triang-file`, without `--subcones` and `--output-subcones`, and with the reduction test `none` (of `ReductionTest.cpp` lines 45–55; never reducible).

A cone is the list of its rays.  What is printed, the file of statistics and the times are not modelled.
-/

namespace Verif.Hilbert

open Verif.Barvinok (Vec Mat)
open Verif.Regular (listMat)

variable {m : ℕ}

/-- The external parts: dualization with cdd or 4ti2 for cones that do not have as many rays as coordinates (only the numbers of facets and of equations are used), zsolve and the engine for triangulations.
The last two can depend on the time and on random numbers, so they get the number of calls made before.  `none` is the limit for the time, reached. -/
structure Tools (m : ℕ) where
  numFacets : List (Vec (m + 1)) → ℕ
  numEquations : List (Vec (m + 1)) → ℕ
  zsolve : ℕ → List (Vec (m + 1)) → Option (List (Vec (m + 1)))
  triangulate : ℕ → List (Vec (m + 1)) → List (List (Vec (m + 1)))

/-- `--max-facets` (default: the largest `int`), `--max-determinant-for-enumeration` (default: -1) and `--no-initial-triangulation`. -/
structure Params where
  maxFacets : ℤ
  maxDeterminant : ℤ
  initialTriangulation : Bool

/-- `known_hilbert_vectors`, the vectors written to the file with `WriteVector` so far, and the number of calls of external parts. -/
structure St (m : ℕ) where
  known : List (Vec (m + 1))
  file : List (Vec (m + 1))
  calls : ℕ

/-- How a run ends: normally, with a failed assertion, `abort()` or an array access out of bounds (not told apart), or the model's rounds are used up. -/
inductive Out (α : Type) where
  | ok (a : α)
  | abort
  | fuel

/-- `insert_hilbert_basis_element`, lines 72–99. -/
def insertVector (s : St m) (v : Vec (m + 1)) : St m :=
  if v ∈ s.known then s else { s with known := v :: s.known, file := s.file ++ [v] }

/-- `insert_hilbert_basis_element` for all vectors of a list, lines 112–120 and 329–331. -/
def insertAll (s : St m) (l : List (Vec (m + 1))) : St m := l.foldl insertVector s

/-- The matrix of the rays of a cone with as many rays as coordinates, and `computeDetAndFacetsOfSimplicialCone` (dual.cpp 224–275, model of C15) for the cone with vertex 0 (`latte_cddlib.cpp`), followed by
`pointsInParallelepiped` (model of C13).  Enough rounds are given to the loop over the points. -/
def piped (X : Smith.Xgcd) (rays : List (Vec (m + 1))) : Option (List (Vec (m + 1))) :=
  match Barvinok.computeDetAndFacets ⟨1, 0, listMat rays, 0, none, 0, 0⟩ with
  | none => none
  | some D =>
    match D.facets with
    | none => none
    | some F =>
      match Piped.points X ⟨D.rays, F, D.facetDivisors, D.determinant, 0, 1⟩ (|(listMat rays).det|.toNat + 1) with
      | .ok pts => some pts
      | _ => none

/-- The values of `int`, for `convert_ZZ_to_int`. -/
def fits (v : Vec (m + 1)) : Prop := ∀ i, |v i| ≤ 2147483647

instance (v : Vec (m + 1)) : Decidable (fits v) := by unfold fits; infer_instance

/-- `RecursiveNormalizer::ConsumeCone` for the cones of a list (lines 142–149), with the function that handles one. -/
def handleList (h : List (Vec (m + 1)) → St m → Out (St m)) : List (List (Vec (m + 1))) → St m → Out (St m)
  | [], s => .ok s
  | c :: cs, s =>
    match h c s with
    | .ok s' => handleList h cs s'
    | .abort => .abort
    | .fuel => .fuel

/-- `handle_cone`, lines 192–361.  A cone with as many rays as coordinates has `dualizeCone` (dual.cpp 164–170) compute determinant and facets, where the assertion in line 243 fails if the determinant is 0.
The determinant of other cones is 0 (what `createListCone` sets), and `abs(t->determinant) == 1` has been excluded before. -/
def handle (X : Smith.Xgcd) (T : Tools m) (P : Params) : ℕ → List (Vec (m + 1)) → St m → Out (St m)
  | 0, _, _ => .fuel
  | f + 1, rays, s =>
    if rays.length = m + 1 ∧ |(listMat rays).det| = 1 then .ok s
    else if rays.length = m + 1 ∧ (listMat rays).det = 0 then .abort
    else if rays.length = m + 1 ∧ |(listMat rays).det| < P.maxDeterminant then
      match piped X rays with
      | none => .abort
      | some pts => if ∀ p ∈ pts, fits p then .ok (insertAll s pts) else .abort
    else
      let facets := if rays.length = m + 1 then m + 1 else T.numFacets rays
      let equations := if rays.length = m + 1 then 0 else T.numEquations rays
      let subdivide := fun s : St m => handleList (handle X T P f) (T.triangulate s.calls rays) { s with calls := s.calls + 1 }
      if (facets : ℤ) < P.maxFacets then
        match T.zsolve s.calls rays with
        | some homs => if (homs.length : ℤ) < (m + 1 : ℕ) - equations then .abort else .ok (insertAll { s with calls := s.calls + 1 } homs)
        | none => subdivide { s with calls := s.calls + 1 }
      else subdivide s

/-- `normalize_main`, lines 720–727, 760–764 and 811–815: the cone read is triangulated first, unless `--no-initial-triangulation` is given. -/
def run (X : Smith.Xgcd) (T : Tools m) (P : Params) (f : ℕ) (rays : List (Vec (m + 1))) : Out (St m) :=
  if P.initialTriangulation then handleList (handle X T P f) (T.triangulate 0 rays) ⟨[], [], 1⟩ else handle X T P f rays ⟨[], [], 0⟩

end Verif.Hilbert
