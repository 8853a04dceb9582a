import Verif.Brion.Count

/-!
# Model of the approximation mode of `count`

`code/latte/ExponentialApprox.cpp` and the part of `code/latte/count.cpp` that calls it (option `--approximate`).  `mpq_class` is `ℚ`, `ZZ` is `ℤ`.  The `double`
weights only decide which cone leaves the heap first; the model lets an arbitrary function decide.
-/

namespace Verif.Approx

open Verif.Barvinok (Vec Mat Cone Ntl Variant barvinokStep computeDetAndFacets dualizeCone)
open Verif.ExpSubst (Fail residueWeights residueSingle vertexScale vertexScaled)

variable {n : ℕ}

/-- `ConeApproximationData`, ExponentialApprox.h:35–44, without the weights and the scalar products, which are not used again. -/
structure Data (n : ℕ) where
  cone : Cone n
  lower : ℚ
  upper : ℚ

/-- The bounds of the scalar product of the vertex, ExponentialApprox.cpp:60–75; `DivRem` rounds down. -/
def vertexBounds (generic : Vec n) (vertex : Fin n → ℚ) : ℤ × ℤ :=
  let product := ExpSubst.inner generic (vertexScaled vertex)
  let lower := product / vertexScale vertex
  if product % vertexScale vertex = 0 then (lower, lower) else (lower, lower + 1)

/-- The bounds for `<c,x>` on `v+Pi`, ExponentialApprox.cpp:77–93. -/
def pipedBounds : List ℤ → ℤ × ℤ → ℤ × ℤ
  | [], b => b
  | p :: l, b =>
    if p < 0 then pipedBounds l (b.1 + p, b.2)
    else if 0 < p then pipedBounds l (b.1, b.2 + p)
    else pipedBounds l b

/-- The bounds for `<c,x>^k`, ExponentialApprox.cpp:105–123, given `k`, `lower_k` and `upper_k`. -/
def powerBound (lower upper : ℤ) (k : ℕ) (lowerK upperK : ℤ) : ℤ × ℤ :=
  if k % 2 = 0 then
    if upper < 0 then (upperK, lowerK)
    else if 0 < lower then (lowerK, upperK)
    else (0, if lowerK > upperK then lowerK else upperK)
  else (lowerK, upperK)

/-- The loop, ExponentialApprox.cpp:95–128; the first argument is the number of rounds left. -/
def powerBounds (lower upper : ℤ) : ℕ → (k : ℕ) → (lowerK upperK : ℤ) → List (ℤ × ℤ)
  | 0, _, _, _ => []
  | t + 1, k, lowerK, upperK =>
    powerBound lower upper k lowerK upperK :: powerBounds lower upper t (k + 1) (lowerK * lower) (upperK * upper)

/-- The loop over the contributions, ExponentialApprox.cpp:134–154: the sum of the smaller ones and the sum of the larger ones. -/
def contributions (coefficient index : ℤ) : List ((ℤ × ℤ) × ℚ) → ℚ × ℚ → ℚ × ℚ
  | [], t => t
  | ((l, u), w) :: rest, t =>
    let lowerContrib := ((coefficient * l * index : ℤ) : ℚ) * w
    let upperContrib := ((coefficient * u * index : ℤ) : ℚ) * w
    if lowerContrib < upperContrib then contributions coefficient index rest (t.1 + lowerContrib, t.2 + upperContrib)
    else contributions coefficient index rest (t.1 + upperContrib, t.2 + lowerContrib)

/-- The constructor of `ConeApproximationData`, ExponentialApprox.cpp:32–155. -/
def approxData (generic : Vec n) (C : Cone n) : Except Fail (Data n) :=
  match residueWeights generic (List.ofFn fun i => C.rays i) with
  | .error e => .error e
  | .ok (weights, _) =>
    let products := (List.ofFn fun i => C.rays i).map (ExpSubst.inner generic)
    let bounds := pipedBounds products (vertexBounds generic C.vertex)
    let total := contributions C.coefficient |C.determinant|
      ((powerBounds bounds.1 bounds.2 (n + 1) 0 1 1).zip weights) (0, 0)
    .ok ⟨C, total.1, total.2⟩

/-- `total_lower_bound`, `total_upper_bound` and the contents of `cone_heap`. -/
structure State (n : ℕ) where
  lower : ℚ
  upper : ℚ
  heap : List (Data n)

/-- The fixed size of the heap, ExponentialApprox.cpp:361. -/
def heapSize : ℕ := 100000

/-- `EvaluateCone`, ExponentialApprox.cpp:203–228; `heap_insert_dblweight` asserts that there is room (heap.cpp:458). -/
def evaluateCone {m : ℕ} (X : Smith.Xgcd) (maxDet : ℤ) (fuel : ℕ) (generic : Vec (m + 1)) (s : State (m + 1)) (C : Cone (m + 1)) :
    Except Fail (State (m + 1)) :=
  if |C.determinant| ≤ maxDet then
    match residueSingle X generic C fuel with
    | .error e => .error e
    | .ok r => .ok ⟨s.lower + r, s.upper + r, s.heap⟩
  else
    match approxData generic C with
    | .error e => .error e
    | .ok d => if s.heap.length < heapSize then .ok ⟨s.lower + d.lower, s.upper + d.upper, d :: s.heap⟩ else .error .abort

/-- A simplicial cone delivered by `triangulateCone`: its rays, and its facets if it carries any (triangulate.cpp:119–123 passes a copy of a cone that is already
simplicial, with the facets it has; its determinants are zero and its `facet_divisors` empty, unless computed before). -/
structure Piece (n : ℕ) where
  rays : Mat n
  facets : Option (Mat n)

/-- `ConsumeCone`, ExponentialApprox.cpp:172–201.  A piece with known facets is only swapped by `dualizeCone`; with determinant 0 or on the heap, the next use of the
cone after the weights reads its empty `facet_divisors` (piped.cpp:183, convert.cpp:74).  In the all-primal variant the facets are dropped.  The dual variant is not
reached (count.cpp:297–307). -/
def consumeCone {m : ℕ} (X : Smith.Xgcd) (v : Variant) (irr : Cone (m + 1) → Fin (m + 1) → ℚ) (maxDet : ℤ) (fuel : ℕ) (generic : Vec (m + 1))
    (vertex : Fin (m + 1) → ℚ) (s : State (m + 1)) (p : Piece (m + 1)) : Except Fail (State (m + 1)) :=
  match v with
  | .irrationalPrimal =>
    match p.facets with
    | some F =>
      match residueWeights generic (List.ofFn fun i => F i) with
      | .error e => .error e
      | .ok _ => .error .undefined
    | none =>
      match dualizeCone ⟨1, vertex, p.rays, 0, none, 0, 0⟩ with
      | none => .error .abort
      | some D => evaluateCone X maxDet fuel generic s { D with vertex := irr D }
  | .irrationalAllPrimal =>
    match computeDetAndFacets ⟨1, vertex, p.rays, 0, none, 0, 0⟩ with
    | none => .error .abort
    | some D => evaluateCone X maxDet fuel generic s D
  | .dual => .error .undefined

/-- The cones of one triangulation, one after the other. -/
def consumePieces {m : ℕ} (X : Smith.Xgcd) (v : Variant) (irr : Cone (m + 1) → Fin (m + 1) → ℚ) (maxDet : ℤ) (fuel : ℕ) (generic : Vec (m + 1))
    (vertex : Fin (m + 1) → ℚ) : List (Piece (m + 1)) → State (m + 1) → Except Fail (State (m + 1))
  | [], s => .ok s
  | p :: l, s =>
    match consumeCone X v irr maxDet fuel generic vertex s p with
    | .error e => .error e
    | .ok s => consumePieces X v irr maxDet fuel generic vertex l s

/-- The loop over the vertex cones, ExponentialApprox.cpp:363–370; every cone comes with its vertex and its triangulation. -/
def consumeCones {m : ℕ} (X : Smith.Xgcd) (v : Variant) (irr : Cone (m + 1) → Fin (m + 1) → ℚ) (maxDet : ℤ) (fuel : ℕ) (generic : Vec (m + 1)) :
    List ((Fin (m + 1) → ℚ) × List (Piece (m + 1))) → State (m + 1) → Except Fail (State (m + 1))
  | [], s => .ok s
  | c :: l, s =>
    match consumePieces X v irr maxDet fuel generic c.1 c.2 s with
    | .error e => .error e
    | .ok s => consumeCones X v irr maxDet fuel generic l s

/-- The loop over the new cones, ExponentialApprox.cpp:398–402. -/
def evaluateChildren {m : ℕ} (X : Smith.Xgcd) (maxDet : ℤ) (fuel : ℕ) (generic : Vec (m + 1)) (ch : Fin (m + 1) → Option (Cone (m + 1))) :
    List (Fin (m + 1)) → State (m + 1) → Except Fail (State (m + 1))
  | [], s => .ok s
  | i :: l, s =>
    match ch i with
    | none => evaluateChildren X maxDet fuel generic ch l s
    | some c =>
      match evaluateCone X maxDet fuel generic s c with
      | .error e => .error e
      | .ok s => evaluateChildren X maxDet fuel generic ch l s

/-- Which cone leaves the heap, and what remains. -/
abbrev Pick (n : ℕ) := Data n → List (Data n) → Data n × List (Data n)

/-- One round of the loop, ExponentialApprox.cpp:372–405, for a heap that is not empty. -/
def round {m : ℕ} (N : Ntl (m + 1)) (X : Smith.Xgcd) (maxDet : ℤ) (fuel : ℕ) (generic : Vec (m + 1)) (pick : Pick (m + 1)) (s : State (m + 1))
    (d : Data (m + 1)) (l : List (Data (m + 1))) : Except Fail (State (m + 1)) :=
  let p := pick d l
  match barvinokStep N p.1.cone with
  | none => .error .abort
  | some (_, ch) =>
    evaluateChildren X maxDet fuel generic ch (List.finRange (m + 1)) ⟨s.lower - p.1.lower, s.upper - p.1.upper, p.2⟩

/-- The loop, ExponentialApprox.cpp:372–406: the state at its end, and the bounds shown by `ShowStats` (345–353) in every round.  The number of rounds is bounded in
the model. -/
def run {m : ℕ} (N : Ntl (m + 1)) (X : Smith.Xgcd) (maxDet : ℤ) (fuel : ℕ) (generic : Vec (m + 1)) (pick : Pick (m + 1)) :
    ℕ → State (m + 1) → Except Fail (State (m + 1)) × List (ℚ × ℚ)
  | 0, _ => (.error .fuel, [])
  | t + 1, s =>
    match s.heap with
    | [] => (.ok s, [])
    | d :: l =>
      match round N X maxDet fuel generic pick s d l with
      | .error e => (.error e, [(s.lower, s.upper)])
      | .ok s' => ((run N X maxDet fuel generic pick t s').1, (s.lower, s.upper) :: (run N X maxDet fuel generic pick t s').2)

/-- `decomposeAndWriteExponentialSampleFormula`, ExponentialApprox.cpp:355–410.  A `NotGenericException` is not caught here.  At the end the bounds of the state are
printed. -/
def approximate {m : ℕ} (N : Ntl (m + 1)) (X : Smith.Xgcd) (v : Variant) (irr : Cone (m + 1) → Fin (m + 1) → ℚ) (maxDet : ℤ) (fuel rounds : ℕ)
    (generic : Vec (m + 1)) (pick : Pick (m + 1)) (cones : List ((Fin (m + 1) → ℚ) × List (Piece (m + 1)))) :
    Except Fail (State (m + 1)) × List (ℚ × ℚ) :=
  match consumeCones X v irr maxDet fuel generic cones ⟨0, 0, []⟩ with
  | .error e => (.error e, [])
  | .ok s => run N X maxDet fuel generic pick rounds s

/-- The variant used with `--approximate`, count.cpp:297–307. -/
def approxVariant : Variant → Variant
  | .dual => .irrationalPrimal
  | v => v

end Verif.Approx
