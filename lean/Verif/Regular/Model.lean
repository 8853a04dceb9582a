import Verif.Barvinok.Model
import Verif.ExpSubst.Model

/-!
# Model of the regular triangulations (`code/latte/triangulation/`)

`triangulateCone` with the cddlib, Delone and 4ti2 methods.  A cone is the list of its rays (the vertex is copied to all parts and plays no role).  Facets
are enumerated by cddlib and 4ti2, which are parameters; their contracts are in `Verif/Regular/Spec.lean`.  Numbers from the random generator are a
parameter too.
-/

namespace Verif.Regular

open Verif.Barvinok (Vec Mat)
open Verif.ExpSubst (Fail)

variable {n : ℕ}

/-- The random generator: `g k from to` is the result of the `k`th call of `uniform_random_number(from, to)`, latte_random.cpp:34–39. -/
abbrev Rng := ℕ → ℤ → ℤ → ℤ

/-- The height functions, RegularTriangulation.cpp:41–94.  For prescribed heights the two lists `special_rays` and `special_heights` are one list of pairs. -/
inductive Height (n : ℕ) where
  | random (maxHeight : ℤ)
  | biased (percentage : ℤ)
  | delone
  | prescribed (table : List (Vec n × ℤ))

/-- The height of one ray and the number of calls of the generator so far, RegularTriangulation.cpp:44–94.  The heights are rational numbers with
denominator one. -/
def height (g : Rng) (h : Height n) (ray : Vec n) (k : ℕ) : ℤ × ℕ :=
  match h with
  | .random maxHeight => (g k 1 maxHeight, k + 1)
  | .biased percentage => (if g k 0 99 < percentage then 2 else 1, k + 1)
  | .delone => (∑ i, ray i * ray i, k)
  | .prescribed table => (((table.find? fun p => p.1 = ray).map (·.2)).getD 0, k)

/-- The heights of all rays, RegularTriangulationWithCddlib.cpp:69–73, RegularTriangulationWith4ti2.cpp:91–108. -/
def heights (g : Rng) (h : Height n) : List (Vec n) → ℕ → List ℤ × ℕ
  | [], k => ([], k)
  | r :: rs, k =>
    let a := height g h r k
    let b := heights g h rs a.2
    (a.1 :: b.1, b.2)

/-! ## cddlib -/

/-- A row of the inequalities and its incidence set, RegularTriangulationWithCddlib.cpp:86–99: whether the row is in `linset`, and `set_member(j, …)`, with
`j` counted from one. -/
structure DDRow where
  equation : Bool
  incident : ℕ → Bool

/-- `dd_DDMatrix2Poly`, `dd_CopyInequalities` and `dd_CopyIncidence` for `M` generators in dimension `d`. -/
abbrev DD := (M d : ℕ) → (Fin M → Fin d → ℚ) → List DDRow

/-- The matrix of generators, RegularTriangulationWithCddlib.cpp:57–73 and `rays_to_cddlib_matrix`, latte_cddlib.cpp:42–63: two coordinates in front of each
ray, zero and the height; at the end the vertical ray. -/
def ddMatrix (rays : List (Vec n)) (ws : List ℤ) : Fin (rays.length + 1) → Fin (n + 2) → ℚ :=
  Fin.snoc (α := fun _ => Fin (n + 2) → ℚ)
    (fun i => Fin.cons (0 : ℚ) (Fin.cons ((ws.getD i 0 : ℤ) : ℚ) fun k => ((rays.get i k : ℤ) : ℚ)))
    (Fin.cons (0 : ℚ) (Fin.cons (1 : ℚ) fun _ => (0 : ℚ)))

/-- `cone_from_ray_set`, RegularTriangulationWithCddlib.cpp:30–45; `j` is the number of the first ray of the list.  Rays are put in front of the list. -/
def coneFromRaySet (inc : ℕ → Bool) : ℕ → List (Vec n) → List (Vec n) → List (Vec n)
  | _, [], acc => acc
  | j, r :: rs, acc => coneFromRaySet inc (j + 1) rs (if inc j then r :: acc else acc)

/-- `set_card`: the number of elements of a set of numbers from 1 to `size`. -/
def setCard (inc : ℕ → Bool) (size : ℕ) : ℕ := ((List.range' 1 size).filter inc).length

/-- The walk through the facets, RegularTriangulationWithCddlib.cpp:94–129; `again` is the recursive call.  The result lists the cones in the order in which
they are handed to the consumer. -/
def cddLoop (nonsimplicial : Bool) (dim : ℕ) (again : List (Vec n) → ℕ → Except Fail (List (List (Vec n)) × ℕ)) (rays : List (Vec n)) :
    List DDRow → ℕ → Except Fail (List (List (Vec n)) × ℕ)
  | [], k => .ok ([], k)
  | row :: rows, k =>
    if row.equation then cddLoop nonsimplicial dim again rays rows k
    else if row.incident (rays.length + 1) then cddLoop nonsimplicial dim again rays rows k
    else
      let c := coneFromRaySet row.incident 1 rays []
      let num := setCard row.incident (rays.length + 1)
      match (if dim < num ∧ nonsimplicial = false then again c k else if num < dim then .error .abort else .ok ([c], k)) with
      | .error e => .error e
      | .ok (out, k) =>
        match cddLoop nonsimplicial dim again rays rows k with
        | .error e => .error e
        | .ok (outs, k) => .ok (out ++ outs, k)

/-- `triangulate_cone_with_cddlib`, RegularTriangulationWithCddlib.cpp:47–134.  `fuel` bounds the depth of the recursion. -/
def triangulateCdd (dd : DD) (nonsimplicial : Bool) (maxHeight : ℤ) (g : Rng) (dim : ℕ) :
    (fuel : ℕ) → Height n → List (Vec n) → ℕ → Except Fail (List (List (Vec n)) × ℕ)
  | 0, _, _, _ => .error .fuel
  | fuel + 1, h, rays, k =>
    let w := heights g h rays k
    cddLoop nonsimplicial dim (triangulateCdd dd nonsimplicial maxHeight g dim fuel (.random maxHeight)) rays
      (dd (rays.length + 1) (n + 2) (ddMatrix rays w.1)) w.2

/-! ## 4ti2 -/

/-- `RayAlgorithm::compute`: the rows of `facets` (slack variables first) and the number of rows of `subspace`, for `M` generators in dimension `d`. -/
abbrev RayAlg := (M d : ℕ) → (Fin M → Fin d → ℤ) → List (ℕ → ℤ) × ℕ

/-- The part of the matrix after the identity, RegularTriangulationWith4ti2.cpp:131–161. -/
def rayMatrix (rays : List (Vec n)) (ws : List ℤ) : Fin (rays.length + 1) → Fin (n + 1) → ℤ :=
  Fin.snoc (α := fun _ => Fin (n + 1) → ℤ) (fun i => Fin.cons (ws.getD i 0) (rays.get i)) (Fin.cons 1 fun _ => 0)

/-- The walk through the facets, RegularTriangulationWith4ti2.cpp:211–266; `dim` is `true_dimension`. -/
def rayLoop (nonsimplicial : Bool) (dim : ℤ) (again : List (Vec n) → ℕ → Except Fail (List (List (Vec n)) × ℕ)) (rays : List (Vec n)) :
    List (ℕ → ℤ) → ℕ → Except Fail (List (List (Vec n)) × ℕ)
  | [], k => .ok ([], k)
  | row :: rows, k =>
    if row (rays.length + 1) ≠ 0 then
      let inc : ℕ → Bool := fun j => row j = 0
      let c := coneFromRaySet inc 0 rays []
      let num := ((List.range rays.length).filter inc).length
      match (if dim < num ∧ nonsimplicial = false then again c k else if (num : ℤ) < dim then .error .abort else .ok ([c], k)) with
      | .error e => .error e
      | .ok (out, k) =>
        match rayLoop nonsimplicial dim again rays rows k with
        | .error e => .error e
        | .ok (outs, k) => .ok (out ++ outs, k)
    else rayLoop nonsimplicial dim again rays rows k

/-- `triangulate_cone_with_4ti2`, RegularTriangulationWith4ti2.cpp:85–282.  `lindep` is `lindep_heights_p` (56–83), which compares two ranks computed by 4ti2. -/
def triangulate4ti2 (alg : RayAlg) (lindep : List (Vec n) → List ℤ → Bool) (nonsimplicial : Bool) (maxHeight : ℤ) (g : Rng) :
    (fuel : ℕ) → Height n → List (Vec n) → ℕ → Except Fail (List (List (Vec n)) × ℕ)
  | 0, _, _, _ => .error .fuel
  | fuel + 1, h, rays, k =>
    let w := heights g h rays k
    if w.1.all fun x => x = w.1.headD 0 then .ok ([rays], w.2)
    else if lindep rays w.1 then .ok ([rays], w.2)
    else
      let r := alg (rays.length + 1) (n + 1) (rayMatrix rays w.1)
      rayLoop nonsimplicial ((n : ℤ) - r.2) (triangulate4ti2 alg lindep nonsimplicial maxHeight g fuel (.random maxHeight)) rays r.1 w.2

/-! ## The choice of the method -/

/-- Methods, `BarvinokParameters::TriangulationType`, barvinok.h:54–64, as far as they are modelled. -/
inductive Method where
  | cddlib
  | delone
  | fortytwo

/-- The parameters, barvinok.h:64–71. -/
structure TriParams (n : ℕ) where
  method : Method
  maxHeight : ℤ
  bias : ℤ
  nonsimplicial : Bool
  prescribed : Option (List (Vec n × ℤ))
  assumeFulldim : Bool

/-- `triangulateCone`, triangulate.cpp:113–189, with `random_regular_triangulation_with_cddlib`, `refined_delone_triangulation_with_cddlib`
(RegularTriangulationWithCddlib.cpp:136–152) and `random_regular_triangulation_with_4ti2` (RegularTriangulationWith4ti2.cpp:284–300).  `Number_of_Variables` and
`numOfVars` are both `n`. -/
def triangulateCone (dd : DD) (alg : RayAlg) (lindep : List (Vec n) → List ℤ → Bool) (P : TriParams n) (g : Rng) (fuel : ℕ) (rays : List (Vec n))
    (k : ℕ) : Except Fail (List (List (Vec n)) × ℕ) :=
  if P.assumeFulldim ∧ n = rays.length then .ok ([rays], k)
  else
    match P.method with
    | .cddlib => triangulateCdd dd P.nonsimplicial P.maxHeight g n fuel (.random P.maxHeight) rays k
    | .delone => triangulateCdd dd P.nonsimplicial P.maxHeight g n fuel .delone rays k
    | .fortytwo =>
      triangulate4ti2 alg lindep P.nonsimplicial P.maxHeight g fuel
        (match P.prescribed with
          | some t => .prescribed t
          | none => if 0 ≤ P.bias then .biased P.bias else .random P.maxHeight) rays k

/-! ## Counting with triangulation -/

open Verif.Barvinok (Cone Ntl Params Variant Outcome barvinokSingle)
open Verif.ExpSubst (acceptExp residueSum)

/-- `CollectingConeConsumer::ConsumeCone`, cone_consumer.cpp:40–46, for all cones handed over: each is put in front of the list. -/
def collect {α : Type} (out : List α) : List α := out.foldl (fun acc c => c :: acc) []

/-- `createConeDecMatrix`, convert.cpp:43–59: the rays are the rows, in the order of the list. -/
def createConeDecMatrix (c : List (Vec n)) : Mat n := fun i => c.getD i 0

/-- The loop of `barvinokDecomposition_Single`, barvinok.cpp:570–577, with the assertion on the number of rays. -/
def decomposeParts [NeZero n] (P : Params n) (v : Variant) (irr : Cone n → Fin n → ℚ) (vertex : Fin n → ℚ) :
    List (List (Vec n)) → List (Cone n) → ℕ → Outcome n
  | [], out, maxDepth => .done true out maxDepth
  | c :: cs, out, maxDepth =>
    if c.length = n then
      match barvinokSingle P v irr (createConeDecMatrix c) vertex out maxDepth with
      | .done true out maxDepth => decomposeParts P v irr vertex cs out maxDepth
      | r => r
    else .abort

/-- The loop over the vertex cones of `barvinokDecomposition_List`, dec.cpp:143–153, with `barvinokDecomposition_Single`, barvinok.cpp:562–582: every cone is
triangulated (triangulate.cpp:100–111), then its parts are decomposed. -/
def triangulateAndDecompose [NeZero n] (tri : List (Vec n) → ℕ → Except Fail (List (List (Vec n)) × ℕ)) (P : Params n) (v : Variant)
    (irr : Cone n → Fin n → ℚ) : List ((Fin n → ℚ) × List (Vec n)) → List (Cone n) → ℕ → ℕ → Except Fail (Outcome n)
  | [], out, maxDepth, _ => .ok (.done true out maxDepth)
  | (vertex, rays) :: Cs, out, maxDepth, k =>
    match tri rays k with
    | .error e => .error e
    | .ok (parts, k) =>
      match decomposeParts P v irr vertex (collect parts) out maxDepth with
      | .done true out maxDepth => triangulateAndDecompose tri P v irr Cs out maxDepth k
      | r => .ok r

/-- The body of the do-while loop of `barvinokDecomposition_List` with the exponential consumer (dec.cpp:137–163, ExponentialSubst.cpp:199–215), like
`Verif.ExpSubst.countOnce` but with the triangulation inside. -/
def triangulateAndCountOnce {m : ℕ} (tri : List (Vec (m + 1)) → ℕ → Except Fail (List (List (Vec (m + 1))) × ℕ)) (N : Ntl (m + 1)) (X : Smith.Xgcd)
    (v : Variant) (irr : Cone (m + 1) → Fin (m + 1) → ℚ) (maxDet : ℤ) (fuel : ℕ) (cones : List ((Fin (m + 1) → ℚ) × List (Vec (m + 1))))
    (generic : Vec (m + 1)) : Except Fail ℚ :=
  match triangulateAndDecompose tri ⟨N, v.mode, maxDet, fun _ C => acceptExp X generic fuel C⟩ v irr cones [] 0 0 with
  | .error e => .error e
  | .ok (.done true out _) => residueSum X generic fuel out 0
  | .ok (.done false _ _) => .error .notGeneric
  | .ok .notIrrational => .error .abort
  | .ok .abort => .error .abort

/-- `decomposeAndComputeExponentialResidue` (ExponentialSubst.cpp:223–233) with the retry loop (dec.cpp:137–163).  Every round triangulates all cones again
with new random numbers: `tris t` is the triangulation in round `t`. -/
def triangulateAndCount {m : ℕ} (N : Ntl (m + 1)) (X : Smith.Xgcd) (v : Variant) (irr : Cone (m + 1) → Fin (m + 1) → ℚ) (maxDet : ℤ) (fuel : ℕ)
    (cones : List ((Fin (m + 1) → ℚ) × List (Vec (m + 1)))) :
    (tries : ℕ) → (tris : ℕ → List (Vec (m + 1)) → ℕ → Except Fail (List (List (Vec (m + 1))) × ℕ)) → (guesses : ℕ → Vec (m + 1)) → Except Fail ℤ
  | 0, _, _ => .error .fuel
  | t + 1, tris, guesses =>
    match triangulateAndCountOnce (tris 0) N X v irr maxDet fuel cones (guesses 0) with
    | .ok result => if result.den = 1 then .ok result.num else .error .abort
    | .error .notGeneric => triangulateAndCount N X v irr maxDet fuel cones t (fun i => tris (i + 1)) (fun i => guesses (i + 1))
    | .error e => .error e

end Verif.Regular
