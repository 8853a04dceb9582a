import Verif.CddV.Model
import Verif.RatVec.Props

/-!
# Model of the input by vertices and of the dualization with cdd

`code/latte/vertices/cdd.cpp`: `createCddExtFile2`, `compute_adjacency`, `computeVertexConesFromExtFile`, `readCddEadFileFromVrep`; `code/latte/dual.cpp`:
`dualizeCone_with_cdd`, `dualizeCone`, `dualizeCones`; `code/latte/count.cpp` for `--vrep` input.  The library cddlib and the program cdd are not part of the code
modelled.
-/

namespace Verif.Vrep

open Verif.Barvinok Verif.Ti2 Verif.ExpSubst Verif.CddV

variable {n : ℕ}

/-! ## The vertex cones -/

/-- `computeVertexConesFromVrep`, cdd.cpp:1119–1179, with `readCddExtFile` (503–626) on the rows of the user's file, copied line by line by `createCddExtFile2`
(305–339), and `readCddEadFileFromVrep` (765–870) on what `compute_adjacency` (1027–1116) wrote: `none` if it found redundant rows and left the file without a line
`begin`, which is looked for in the first ten lines; else the tokens after the two sizes.  Simplification: the numbers of the user are in lowest terms, the first one
of a row after one blank (this matters for one row only). -/
def computeVertexConesFromVrep (rows : List (List ℚ)) (adjacency : Option (List Tok)) : CddV.Outcome n :=
  match rows with
  | [] => .done (some 0)
  | [row] => oneRow ('\n' :: printRow row)
  | rows =>
    match readVertices rows with
    | none => .done (some 0)
    | some vertices =>
      match adjacency with
      | none => .stop
      | some ead => readEad vertices 0 vertices ead

/-! ## Dualization with cdd -/

/-- The program cdd on inequalities `0 + a · x ≥ 0`: the rows of the file of generators, each with a mark whether its number is in the line `linearity`. -/
abbrev ConeCdd (n : ℕ) := List (Vec n) → List (Bool × List ℚ)

/-- dual.cpp:124–138: a row of the file of generators as a vector: the leading entry is skipped, the others are normalized. -/
def facetOf (row : List ℚ) : Vec n := fun k =>
  (((Latte.RatVec.normalize (Latte.RatVec.ofEntries (row.tail.map fun q => (q.num, (q.den : ℤ))))).ents).getD k (0, 1)).1

/-- `dualizeCone_with_cdd`, dual.cpp:70–146.  The line `linearity` stands before `begin` and is skipped (118). -/
def dualizeWithCdd (cdd : ConeCdd n) (C : GCone n) : Except Fail (GCone n) :=
  if C.subspace ≠ [] then .error .abort
  else .ok { C with rays := (cdd (C.rays.map fun r => -r)).map fun row => facetOf row.2, facets := C.rays }

/-- `dualizeCone`, dual.cpp:152–191, with cdd chosen for the general case. -/
def dualizeConeCdd (cdd : ConeCdd n) (C : GCone n) : Except Fail (GCone n) :=
  if C.facets ≠ [] then .ok C.swap
  else if C.rays.length = n then
    match computeDetAndFacets ⟨1, C.vertex, Regular.listMat C.rays, 0, none, 0, 0⟩ with
    | none => .error .abort
    | some D =>
      match D.facets with
      | none => .error .abort
      | some F => .ok (GCone.swap { C with facets := List.ofFn fun i : Fin n => (F i : Vec n) })
  else dualizeWithCdd cdd C

/-- `dualizeCones`, dual.cpp:193–220, for either choice. -/
def dualizeAll (dual : GCone n → Except Fail (GCone n)) : List (GCone n) → Except Fail (List (GCone n))
  | [] => .ok []
  | C :: l => do
    let C' ← dual C
    let l' ← dualizeAll dual l
    return C' :: l'

/-! ## Counting -/

/-- `count --vrep --exp` in dual mode: count.cpp:356–373 (no tight inequalities for this input), 402–418, and the decomposition. -/
def countVrep {m : ℕ} (rows : List (List ℚ)) (adjacency : Option (List Tok)) (dual : GCone (m + 1) → Except Fail (GCone (m + 1))) (N : Ntl (m + 1)) (X : Smith.Xgcd)
    (irr : Cone (m + 1) → Fin (m + 1) → ℚ) (maxDet : ℤ) (fuel : ℕ) (tries : ℕ)
    (tris : ℕ → List (Vec (m + 1)) → ℕ → Except Fail (List (List (Vec (m + 1))) × ℕ)) (guesses : ℕ → Vec (m + 1)) : CddV.Report :=
  match (computeVertexConesFromVrep rows adjacency : CddV.Outcome (m + 1)) with
  | .done (some k) => .number k
  | .done none => .noNumber
  | .stop => .stop
  | .undefined => .undefined
  | .cones cones =>
    match dualizeAll dual cones with
    | .error e => .failed e
    | .ok cones =>
      match Regular.triangulateAndCount N X .dual irr maxDet fuel (cones.map fun C => (C.vertex, C.rays)) tries tris guesses with
      | .error e => .failed e
      | .ok k => .number k

/-- The preparation of the irrational all-primal variant, count.cpp:428–457, for cones that are not dualized: the first cone decides whether all are dualized twice;
an assertion on the number of facets follows. -/
def allPrimalVrep (dual : GCone n → Except Fail (GCone n)) (cones : List (GCone n)) : Except Fail (List (GCone n)) :=
  let complete : Except Fail (List (GCone n)) :=
    match cones with
    | [] => .ok []
    | C :: l =>
      if C.facets = [] ∨ C.rays = [] then
        match dualizeAll dual (C :: l) with
        | .error e => .error e
        | .ok once => dualizeAll dual once
      else .ok (C :: l)
  match complete with
  | .error e => .error e
  | .ok cones => if cones.all fun C => decide (n ≤ C.facets.length) then .ok cones else .error .abort

end Verif.Vrep
