import Verif.Todd.Model
import Verif.Piped.Model

/-!
# Model of `code/latte/ExponentialSubst.cpp`, `code/latte/ExponentialEhrhart.cpp` and of the retry
loop of `code/latte/barvinok/dec.cpp`

`mpq_class` is `ℚ`, `ZZ`/`mpz_class` is `ℤ`. The cones are those of `Verif.Barvinok`; the scalar
products of the lattice points come from the model of `piped.cpp` (`Verif.Piped`).
-/

namespace Verif.ExpSubst

open Verif.Barvinok (Cone Mat Vec)

/-- Ways a computation can end without a value: `NotGenericException`, a GMP division by zero or a
failed assertion or `abort()`, an access out of bounds, or the fuel of the model ran out. -/
inductive Fail where
  | notGeneric
  | abort
  | undefined
  | fuel
  deriving DecidableEq, Repr

/-- `InnerProduct` of NTL. -/
def inner {n : ℕ} (a b : Vec n) : ℤ := ∑ k, a k * b k

/-- `computeExponentialResidueWeights`, ExponentialSubst.cpp:56–92 (the overload of 94–104 drops the
product). The list holds the rays in list order. Returns the weights and
`prod_ray_scalar_products`. -/
def residueWeights {n : ℕ} (generic : Vec n) (rays : List (Vec n)) : Except Fail (List ℚ × ℤ) :=
  let products := rays.map (inner generic)
  if 0 ∈ products then .error .notGeneric
  else
    match Todd.evaluateTodd products with
    | none => .error .abort
    | some todds =>
      .ok ((List.range (rays.length + 1)).map fun k =>
        todds.getD (rays.length - k) 0 / (products.prod : ℚ) / (k.factorial : ℚ), products.prod)

/-- The inner loop of `compute_sums_of_scalar_powers`, ExponentialSubst.cpp:119–125: `sum[k] +=
scalar_power; scalar_power *= inner` for the remaining entries of `sum`. -/
def addPowers (inner : ℤ) : (power : ℤ) → List ℤ → List ℤ
  | _, [] => []
  | power, s :: rest => (s + power) :: addPowers inner (power * inner) rest

/-- `compute_sums_of_scalar_powers`, ExponentialSubst.cpp:106–128, given the scalar products; and
`compute_sums_of_scalar_powers_mpz` (130–145), which only converts. -/
def sumsOfPowers (dimension : ℕ) (products : List ℤ) : List ℤ :=
  products.foldl (fun sum p => addPowers p 1 sum) (List.replicate (dimension + 1) 0)

/-- The least common denominator of the vertex (`scaleRationalVectorToInteger`, C06). -/
def vertexScale {n : ℕ} (v : Fin n → ℚ) : ℤ := ((Finset.univ.lcm fun k => (v k).den : ℕ) : ℤ)

/-- The scaled vertex. -/
def vertexScaled {n : ℕ} (v : Fin n → ℚ) : Vec n :=
  fun k => (v k).num * (vertexScale v / (v k).den)

/-- What `PointsInParallelepipedGenerator` reads of the cone (piped.cpp:105–210). -/
def pipedInput {m : ℕ} (C : Cone (m + 1)) (facets : Mat (m + 1)) : Piped.Input m :=
  ⟨C.rays, facets, C.facetDivisors, C.determinant, vertexScaled C.vertex, vertexScale C.vertex⟩

/-- `computeLatticePointsScalarProducts` on a cone without listed points. A cone without facets
makes the generator read a NULL list: `undefined`. -/
def coneScalarProducts {m : ℕ} (X : Smith.Xgcd) (generic : Vec (m + 1)) (C : Cone (m + 1))
    (fuel : ℕ) : Except Fail (List ℤ) :=
  match C.facets with
  | none => .error .undefined
  | some F =>
    match Piped.scalarProducts X (pipedInput C F) generic fuel with
    | .ok l => .ok l
    | .abort => .error .abort
    | .undefined => .error .undefined
    | .fuel => .error .fuel

/-- `computeExponentialResidue_Single`, ExponentialSubst.cpp:147–175. -/
def residueSingle {m : ℕ} (X : Smith.Xgcd) (generic : Vec (m + 1)) (C : Cone (m + 1)) (fuel : ℕ) :
    Except Fail ℚ := do
  let (weights, _) ← residueWeights generic (List.ofFn fun i => C.rays i)
  let products ← coneScalarProducts X generic C fuel
  let sum := sumsOfPowers (m + 1) products
  let result := ((List.range weights.length).map fun k => (sum.getD k 0 : ℚ) * weights.getD k 0).sum
  return (C.coefficient : ℚ) * result

/-- The loop over the cones in `computeExponentialResidue`, ExponentialSubst.cpp:183–187, and the
accumulation in `Exponential_Single_Cone_Parameters::ConsumeCone` (199–215). -/
def residueSum {m : ℕ} (X : Smith.Xgcd) (generic : Vec (m + 1)) (fuel : ℕ) :
    List (Cone (m + 1)) → ℚ → Except Fail ℚ
  | [], result => .ok result
  | C :: Cs, result => do
    let r ← residueSingle X generic C fuel
    residueSum X generic fuel Cs (result + r)

/-- `computeExponentialResidue`, ExponentialSubst.cpp:177–197: guess a vector (`guesses` is the
sequence of vectors `guess_generic_vector` will deliver), sum up, retry on `NotGenericException`;
`assert(result.get_den() == 1)`. The retry loop may run forever; `tries` bounds it in the model
(`fuel` when exhausted). -/
def computeResidue {m : ℕ} (X : Smith.Xgcd) (fuel : ℕ) (cones : List (Cone (m + 1))) :
    (tries : ℕ) → (guesses : ℕ → Vec (m + 1)) → Except Fail ℤ
  | 0, _ => .error .fuel
  | t + 1, guesses =>
    match residueSum X (guesses 0) fuel cones 0 with
    | .ok result => if result.den = 1 then .ok result.num else .error .abort
    | .error .notGeneric => computeResidue X fuel cones t (fun i => guesses (i + 1))
    | .error e => .error e

/-! ## Ehrhart polynomials -/

/-- The inner sum of `Exponential_Ehrhart_Parameters::ConsumeCone`, ExponentialEhrhart.cpp:56–61. -/
def ehrhartInner (numOfVars : ℕ) (weights : List ℚ) (sums : List ℤ) (k : ℕ) : ℚ :=
  ((List.range' k (numOfVars + 1 - k)).map fun l =>
    (l.choose k : ℚ) * weights.getD l 0 * (sums.getD (l - k) 0 : ℚ)).sum

/-- `Exponential_Ehrhart_Parameters::ConsumeCone`, ExponentialEhrhart.cpp:34–70: what the cone adds to
the coefficients. `ev` is `cone->vertex->ehrhart_vertex`. -/
def ehrhartSingle {m : ℕ} (X : Smith.Xgcd) (generic : Vec (m + 1)) (C : Cone (m + 1))
    (ev : Vec (m + 1)) (fuel : ℕ) : Except Fail (ℕ → ℚ) := do
  let (weights, _) ← residueWeights generic (List.ofFn fun i => C.rays i)
  let products ← coneScalarProducts X generic C fuel
  let sums := sumsOfPowers (m + 1) products
  return fun k => (C.coefficient : ℚ) * ((inner generic ev ^ k : ℤ) : ℚ) *
    ehrhartInner (m + 1) weights sums k

/-- Accumulation over all cones (starting from `InitializeComputation`, ExponentialEhrhart.cpp:26–32);
the coefficients `0, …, numOfVars` are meaningful. -/
def ehrhartSum {m : ℕ} (X : Smith.Xgcd) (generic : Vec (m + 1)) (fuel : ℕ) :
    List (Cone (m + 1) × Vec (m + 1)) → (ℕ → ℚ) → Except Fail (ℕ → ℚ)
  | [], coeffs => .ok coeffs
  | (C, ev) :: Cs, coeffs => do
    let r ← ehrhartSingle X generic C ev fuel
    ehrhartSum X generic fuel Cs (fun k => coeffs k + r k)

end Verif.ExpSubst

/-! ## Decomposition with the exponential consumer -/

namespace Verif.ExpSubst

open Verif.Barvinok (Cone Mat Vec Ntl Variant Outcome Params barvinokDecompositionSingle)

/-- The inner loop of `barvinokDecomposition_List`, dec.cpp:143–153: all vertex cones, each given by
its vertex and the ray matrices of its triangulation, until one returns a negative status. -/
def decompositionList {n : ℕ} [NeZero n] (P : Params n) (v : Variant) (irr : Cone n → Fin n → ℚ) :
    List ((Fin n → ℚ) × List (Mat n)) → List (Cone n) → ℕ → Outcome n
  | [], out, maxDepth => .done true out maxDepth
  | (vertex, T) :: Cs, out, maxDepth =>
    match barvinokDecompositionSingle P v irr vertex T out maxDepth with
    | .done true out maxDepth => decompositionList P v irr Cs out maxDepth
    | r => r

/-- The status `Exponential_Single_Cone_Parameters::ConsumeCone` returns (ExponentialSubst.cpp:199–215):
-1 (`false`) exactly on a `NotGenericException`. -/
def acceptExp {m : ℕ} (X : Smith.Xgcd) (generic : Vec (m + 1)) (fuel : ℕ) (C : Cone (m + 1)) :
    Bool :=
  match residueSingle X generic C fuel with
  | .error .notGeneric => false
  | _ => true

/-- The body of the do-while loop of `barvinokDecomposition_List` with the exponential consumer
(dec.cpp:137–163, ExponentialSubst.cpp:199–215): decompose, add up the contributions. The sum is
formed here after the decomposition instead of cone by cone; a failure of a contribution other than
`NotGenericException` stops the program in both cases. -/
def countOnce {m : ℕ} (N : Ntl (m + 1)) (X : Smith.Xgcd) (v : Variant)
    (irr : Cone (m + 1) → Fin (m + 1) → ℚ) (maxDet : ℤ) (fuel : ℕ)
    (cones : List ((Fin (m + 1) → ℚ) × List (Mat (m + 1)))) (generic : Vec (m + 1)) :
    Except Fail ℚ :=
  match decompositionList ⟨N, v.mode, maxDet, fun _ C => acceptExp X generic fuel C⟩ v irr cones
      [] 0 with
  | .done true out _ => residueSum X generic fuel out 0
  | .done false _ _ => .error .notGeneric
  | .notIrrational => .error .abort
  | .abort => .error .abort

/-- `decomposeAndComputeExponentialResidue` (ExponentialSubst.cpp:223–233) with the retry loop of
`barvinokDecomposition_List` (dec.cpp:137–163). `guesses` are the vectors `guess_generic_vector`
returns one after the other. -/
def decomposeAndCount {m : ℕ} (N : Ntl (m + 1)) (X : Smith.Xgcd) (v : Variant)
    (irr : Cone (m + 1) → Fin (m + 1) → ℚ) (maxDet : ℤ) (fuel : ℕ)
    (cones : List ((Fin (m + 1) → ℚ) × List (Mat (m + 1)))) :
    (tries : ℕ) → (guesses : ℕ → Vec (m + 1)) → Except Fail ℤ
  | 0, _ => .error .fuel
  | t + 1, guesses =>
    match countOnce N X v irr maxDet fuel cones (guesses 0) with
    | .ok result => if result.den = 1 then .ok result.num else .error .abort
    | .error .notGeneric =>
      decomposeAndCount N X v irr maxDet fuel cones t (fun i => guesses (i + 1))
    | .error e => .error e

end Verif.ExpSubst
