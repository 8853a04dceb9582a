import Verif.Ti2.Spec
import Verif.Regular.Count
import Verif.Brion.Ehrhart

/-!
# Model of the vertex cones and the dualization with 4ti2

`code/latte/VertexConesWith4ti2.cpp`, `code/latte/DualizationWith4ti2.cpp`, `code/latte/dual.cpp` (`dualizeCone`, `dualizeCones`), `code/latte/latte_4ti2.cpp`
and the parts of `code/latte/ReadPolyhedron.cpp` and `code/latte/count.cpp` that call them.  Lists are in the order of the linked lists.
-/

namespace Verif.Ti2

open Verif.Barvinok Verif.ExpSubst Verif.Regular

variable {n : ℕ}

/-- `rays_to_4ti2_VectorArray`, latte_4ti2.cpp:26–42, without extra rows: the entries of a new array are zero. -/
def rayArray {d : ℕ} (rows : List (Fin d → ℤ)) (H : ℕ) : Fin rows.length → Fin (H + d) → ℤ := fun i => Fin.append (fun _ => 0) (rows.get i)

/-- The loop setting `(*matrix)[i][i]`, VertexConesWith4ti2.cpp:57–63, DualizationWith4ti2.cpp:73–79. -/
def setDiagonal {R d : ℕ} (c : ℤ) (A : Fin R → Fin (R + d) → ℤ) : Fin R → Fin (R + d) → ℤ := fun i j => if j = Fin.castAdd d i then c else A i j

/-- The bit set after `rs->set(i)` for the first `R` coordinates. -/
def slackBits (R d : ℕ) : Fin (R + d) → Bool := fun j => decide (j.val < R)

/-- A row of LattE's matrix: `(b, a)` stands for `b + a · x ≥ 0`. -/
def rowVec (q : ℤ × Vec n) : Fin (n + 1) → ℤ := Fin.cons q.1 q.2

/-- A cone as the functions here make and use it. -/
structure GCone (n : ℕ) where
  vertex : Fin n → ℚ
  rays : List (Vec n)
  facets : List (Vec n)
  subspace : List (Vec n)
  equalities : List (Vec n)

/-- The loop over the inequalities, VertexConesWith4ti2.cpp:125–145; `r` is the ray of the homogenization. -/
def incident (ineqs : List (ℤ × Vec n)) (r : Fin (ineqs.length + (n + 1)) → ℤ) : List (Vec n) :=
  (List.finRange ineqs.length).foldl (fun acc j =>
    if r (Fin.castAdd (n + 1) j) = 0 then reduceRow (fun k => -(ineqs.get j).2 k) :: acc else acc) []

/-- One round of the loop over the rays, VertexConesWith4ti2.cpp:101–158; `CollectingConeConsumer` (cone_consumer.cpp:40–46) puts the cone in front. -/
def vertexStep (ineqs : List (ℤ × Vec n)) (s : Bool × List (GCone n)) (r : Fin (ineqs.length + (n + 1)) → ℤ) : Bool × List (GCone n) :=
  let denominator := r (Fin.natAdd ineqs.length 0)
  if denominator = 0 then (true, s.2)
  else (s.1, ⟨fun j => (r (Fin.natAdd ineqs.length j.succ) : ℚ) / denominator, [], incident ineqs r, [], []⟩ :: s.2)

/-- The matrix given to 4ti2, VertexConesWith4ti2.cpp:47–63. -/
def vertexMatrix (ineqs : List (ℤ × Vec n)) : Fin ineqs.length → Fin (ineqs.length + (n + 1)) → ℤ :=
  setDiagonal (-1) fun i => rayArray (ineqs.map rowVec) ineqs.length (Fin.cast (List.length_map rowVec).symm i)

/-- The bit set, VertexConesWith4ti2.cpp:48, 61, 65. -/
def vertexBits (N n : ℕ) : Fin (N + (n + 1)) → Bool := fun j => slackBits N (n + 1) j || decide (j.val = N)

/-- `computeVertexConesWith4ti2`, VertexConesWith4ti2.cpp:36–170: the flag `unbounded` and the cones; the assertion on `subspace`. -/
def vertexCones (alg : Rays) (ineqs : List (ℤ × Vec n)) : Except Fail (Bool × List (GCone n)) :=
  let r := alg ineqs.length (ineqs.length + (n + 1)) (vertexMatrix ineqs) (vertexBits ineqs.length n)
  if r.2 ≠ [] then .error .abort
  else .ok (r.1.foldl (vertexStep ineqs) (false, []))

/-! ## Dualization -/

/-- `listVectors_from_VectorArray`, DualizationWith4ti2.cpp:33–51: the list is built from its end. -/
def listVectors {H d : ℕ} (rows : List (Fin (H + d) → ℤ)) : List (Fin d → ℤ) := rows.foldl (fun acc r => (fun j => r (Fin.natAdd H j)) :: acc) []

/-- The swaps of `dualizeCone`, dual.cpp:160–162 and DualizationWith4ti2.cpp:96–98.  The determinants are left out. -/
def GCone.swap (C : GCone n) : GCone n := ⟨C.vertex, C.facets, C.rays, C.equalities, C.subspace⟩

/-- The matrix given to 4ti2, DualizationWith4ti2.cpp:67–79. -/
def dualMatrix (rays : List (Vec n)) : Fin rays.length → Fin (rays.length + n) → ℤ := setDiagonal 1 (rayArray rays rays.length)

/-- `dualizeCone_with_4ti2`, DualizationWith4ti2.cpp:53–99. -/
def dualize4ti2 (alg : Rays) (C : GCone n) : Except Fail (GCone n) :=
  if C.facets ≠ [] then .error .abort
  else if C.subspace ≠ [] then .error .abort
  else
    let r := alg C.rays.length (C.rays.length + n) (dualMatrix C.rays) (slackBits C.rays.length n)
    .ok (GCone.swap { C with facets := listVectors r.1, equalities := listVectors r.2 })

/-- `dualizeCone`, dual.cpp:142–188, with 4ti2 chosen for the general case.  (The simplicial case computes the facets of the square matrix of the rays as in
`Verif/Barvinok`; they become the list of its rows, dual.cpp:252–254.) -/
def dualizeCone (alg : Rays) (C : GCone n) : Except Fail (GCone n) :=
  if C.facets ≠ [] then .ok C.swap
  else if C.rays.length = n then
    match computeDetAndFacets ⟨1, C.vertex, listMat C.rays, 0, none, 0, 0⟩ with
    | none => .error .abort
    | some D =>
      match D.facets with
      | none => .error .abort
      | some F => .ok (GCone.swap { C with facets := List.ofFn fun i : Fin n => (F i : Vec n) })
  else dualize4ti2 alg C

/-- `dualizeCones`, dual.cpp:190–218. -/
def dualizeCones (alg : Rays) : List (GCone n) → Except Fail (List (GCone n))
  | [] => .ok []
  | C :: l => do
    let C' ← dualizeCone alg C
    let l' ← dualizeCones alg l
    return C' :: l'

/-- `computeTightInequalitiesOfCones`, dual.cpp:277–309. -/
def tightFacets (ineqs : List (ℤ × Vec n)) (C : GCone n) : GCone n := { C with facets := Brion.computeTight ineqs C.vertex C.facets }

/-- Dualizing all cones twice. -/
def dualizeTwice (alg : Rays) (cones : List (GCone n)) : Except Fail (List (GCone n)) :=
  match dualizeCones alg cones with
  | .error e => .error e
  | .ok once => dualizeCones alg once

/-- The computation of missing facets or rays, count.cpp:428–450: the first cone decides. -/
def completeCones (alg : Rays) : List (GCone n) → Except Fail (List (GCone n))
  | [] => .ok []
  | C :: l => if C.facets = [] ∨ C.rays = [] then dualizeTwice alg (C :: l) else .ok (C :: l)

/-- The preparation of the irrational all-primal variant, count.cpp:428–457, for cones that are not dualized, with the assertion on the number of facets. -/
def allPrimalCones (alg : Rays) (cones : List (GCone n)) : Except Fail (List (GCone n)) :=
  match completeCones alg cones with
  | .error e => .error e
  | .ok cones => if cones.all fun C => decide (n ≤ C.facets.length) then .ok cones else .error .abort

/-! ## Counting -/

/-- What the program reports. -/
inductive Report where
  | number (k : ℤ)
  | unbounded
  | failed (e : Fail)
  deriving DecidableEq

/-- `count --compute-vertex-cones=4ti2 --exp`, from the matrix on, without equations, in dual mode: ReadPolyhedron.cpp:307–311, count.cpp:354–371, 396–412, 547–554
and the decomposition. -/
def countDual {m : ℕ} (alg : Rays) (N : Ntl (m + 1)) (X : Smith.Xgcd) (irr : Cone (m + 1) → Fin (m + 1) → ℚ) (maxDet : ℤ) (fuel : ℕ)
    (ineqs : List (ℤ × Vec (m + 1))) (tries : ℕ) (tris : ℕ → List (Vec (m + 1)) → ℕ → Except Fail (List (List (Vec (m + 1))) × ℕ))
    (guesses : ℕ → Vec (m + 1)) : Report :=
  match vertexCones alg ineqs with
  | .error e => .failed e
  | .ok (unbounded, cones) =>
    match dualizeCones alg ((cones.map (tightFacets ineqs)).map (tightFacets ineqs)) with
    | .error e => .failed e
    | .ok cones =>
      if unbounded then .unbounded
      else
        match triangulateAndCount N X .dual irr maxDet fuel (cones.map fun C => (C.vertex, C.rays)) tries tris guesses with
        | .error e => .failed e
        | .ok k => .number k

end Verif.Ti2
