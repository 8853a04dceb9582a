import Mathlib.LinearAlgebra.Matrix.Adjugate
import Mathlib.LinearAlgebra.Matrix.NonsingularInverse
import Mathlib.Data.Int.GCD
import Mathlib.Data.List.FinRange
import Mathlib.Algebra.BigOperators.Fin
import Mathlib.Data.Rat.Floor
import Mathlib.Tactic.Linarith

/-!
# Barvinok's decomposition (model)

Models `code/latte/dual.cpp` (`computeDetAndFacetsOfSimplicialCone`, `dualizeCone` for simplicial
cones), `code/latte/barvinok/barvinok.cpp` (`CheckOmega`, `MatrixGCD`, `barvinok_Single`,
`computeAndCheckDeterminants`, `barvinokStep`, `deliver_cone`, `criterion_abs_det`, `barvinok_DFS`,
`barvinokDecomposition_Single`) and `code/latte/barvinok/ComputeOmega.cpp` (`norm`,
`ComputeOmega`).

NTL is a library: `determinant` is `Matrix.det`; `inv(d, X, A)` is documented as `d = det A`,
`X*A = d*I` when `d ≠ 0`, i.e. `X` is the adjugate; `LLL`, `image` and `LatticeSolve` are
parameters of the model restricted by their documented contracts (`Ntl.Ok` below), so all theorems
hold for whatever basis LLL happens to return.
-/

namespace Verif.Barvinok

/-- Square integer matrices, rows first, as NTL's `mat_ZZ`. -/
abbrev Mat (n : ℕ) := Matrix (Fin n) (Fin n) ℤ
/-- NTL's `vec_ZZ`. -/
abbrev Vec (n : ℕ) := Fin n → ℤ

/-- A simplicial `listCone` (code/latte/cone.h lines 64–84). Rays and facets are kept as matrices
(one vector per row, list order); `facets = none` is the NULL list. The vertex is a rational
vector. `subspace_generators`, `equalities`, `latticePoints` and the index hints are not touched by
the functions modelled here and are left out. -/
structure Cone (n : ℕ) where
  coefficient : ℤ
  vertex : Fin n → ℚ
  rays : Mat n
  determinant : ℤ
  facets : Option (Mat n)
  facetDivisors : Vec n
  dualDeterminant : ℤ

/-- `gcd = GCD(gcd, v[j])` over all entries, starting from `ZZ gcd = 0`
(dual.cpp lines 262–265; barvinok.cpp lines 189–192, where zero entries are skipped, which does
not change a gcd). -/
def rowGcd {n : ℕ} (v : Vec n) : ℤ :=
  (List.finRange n).foldl (fun (g : ℤ) j => (Int.gcd g (v j) : ℤ)) 0

/-- The sign fix and transpose of the scaled inverse (dual.cpp lines 244–251). -/
def signedInverse {n : ℕ} (A : Mat n) : Mat n :=
  -(if A.det < 0 then -A.adjugate else A.adjugate).transpose

/-- The divisor test `gcd != 0 && gcd != 1` with the division of the facet (dual.cpp lines
262–265). -/
def reduceRow {n : ℕ} (v : Vec n) : Vec n :=
  if rowGcd v ≠ 0 ∧ rowGcd v ≠ 1 then fun j => v j / rowGcd v else v

/-- `computeDetAndFacetsOfSimplicialCone` (dual.cpp lines 224–272). `none` is a failed assertion
(`facets == NULL`, `det != 0`, zero remainder). -/
def computeDetAndFacets {n : ℕ} (C : Cone n) : Option (Cone n) :=
  if C.facets.isSome then none
  else if C.rays.det = 0 then none
  else
    let F := signedInverse C.rays
    if ∀ i, |C.rays.det| % rowGcd (F i) = 0 then
      some { C with
        determinant := C.rays.det
        facets := some fun i => reduceRow (F i)
        facetDivisors := fun i => |C.rays.det| / rowGcd (F i)
        dualDeterminant := (List.finRange n).foldl
          (fun d i => if rowGcd (F i) ≠ 0 ∧ rowGcd (F i) ≠ 1 then d / rowGcd (F i) else d) F.det }
    else none

/-- The three `swap`s of `dualizeCone` (dual.cpp lines 160–162, 168–170). The `facet_divisors`
are not touched. The subspace/equalities swap is not modelled (both lists are empty here). -/
def swapDual {n : ℕ} (C : Cone n) (F : Mat n) : Cone n :=
  { C with
    rays := F
    facets := some C.rays
    determinant := C.dualDeterminant
    dualDeterminant := C.determinant }

/-- `dualizeCone` for cones that carry `n` rays (dual.cpp lines 152–171): swap if facets are known,
otherwise compute them first. -/
def dualizeCone {n : ℕ} (C : Cone n) : Option (Cone n) :=
  match C.facets with
  | some F => some (swapDual C F)
  | none =>
    match computeDetAndFacets C with
    | none => none
    | some C' =>
      match C'.facets with
      | some F => some (swapDual C' F)
      | none => none

/-! ## The short vector -/

/-- What the model knows of NTL. `lll L` is the pair `(L', U)` left in `L` and `U` by
`LLL(det2, L, U, 1, 1)`; `kernel M` is row 0 of the transformation returned by
`image(d, M, U)` for an `(n+1) × n` matrix; `latticeSolve A b` is the `x` of
`LatticeSolve(x, A, b)`. -/
structure Ntl (n : ℕ) where
  lll : Mat n → Mat n × Mat n
  kernel : (Fin (n + 1) → Vec n) → (Fin (n + 1) → ℤ)
  latticeSolve : Mat n → Vec n → Vec n

/-- The documented contracts: `LLL` returns a unimodular transformation and its product with the
input; `image` puts a non-zero kernel vector first when the rows are dependent; `LatticeSolve`
solves whenever there is an integral solution. -/
structure Ntl.Ok {n : ℕ} (N : Ntl n) : Prop where
  lll_mul : ∀ L, (N.lll L).1 = (N.lll L).2 * L
  lll_unimodular : ∀ L, IsUnit (N.lll L).2.det
  kernel_ne : ∀ M, N.kernel M ≠ 0
  kernel_mul : ∀ M, ∀ k, ∑ i, N.kernel M i * M i k = 0
  solve : ∀ A b, (∃ x, Matrix.vecMul x A = b) → Matrix.vecMul (N.latticeSolve A b) A = b

/-- `norm` (ComputeOmega.cpp lines 32–40): the maximum norm, starting from 0. -/
def norm {n : ℕ} (x : Vec n) : ℤ :=
  (List.finRange n).foldl (fun (m : ℤ) i => if m < |x i| then |x i| else m) 0

/-- The index search of `ComputeOmega` (lines 72–84): the first row of least non-zero norm below
1000000, defaulting to the first row. State: (index, pp). -/
def shortIndex {n : ℕ} [NeZero n] (L : Mat n) : Fin n :=
  ((List.finRange n).foldl (fun (s : Fin n × ℤ) i =>
    if norm (L i) ≠ 0 ∧ s.2 > norm (L i) then (i, norm (L i)) else s) ((0 : Fin n), 1000000)).1

/-- Decimal digit `j` (most significant first) of `count`, minus 5 (lines 120–137). -/
def digit (n : ℕ) (count : ℕ) (j : Fin n) : ℤ :=
  ((count / 10 ^ (n - 1 - j.val) % 10 : ℕ) : ℤ) - 5

/-- `dummyV`: the combination of the rows of `L` with the digits of `count` (lines 138–142). -/
def combo {n : ℕ} (L : Mat n) (count : ℕ) : Vec n :=
  fun k => ∑ j, digit n count j * L j k

/-- The exhaustive loop of `ComputeOmega` for `l == 2` (lines 116–152): `count` runs over
`1, …, 10^m - 1`; the shortest non-zero combination below 100000000 is kept, starting from
`L(index)`. -/
def searchShort {n : ℕ} (L : Mat n) (start : Vec n) : Vec n :=
  ((List.range (10 ^ n - 1)).foldl (fun (s : Vec n × ℤ) i =>
    if norm (combo L (i + 1)) < s.2 ∧ norm (combo L (i + 1)) ≠ 0
    then (combo L (i + 1), norm (combo L (i + 1))) else s) (start, 100000000)).1

/-- `ComputeOmega(B, Dual, m, 0, 0)` (lines 54–85): a row of the LLL transformation. -/
def computeOmega0 {n : ℕ} [NeZero n] (N : Ntl n) (dual : Mat n) : Vec n :=
  let LU := N.lll (-dual.transpose)
  LU.2 (shortIndex LU.1)

/-- `ComputeOmega(B, Dual, m, 2, 2)` (lines 87–165). The code counts
`10^m` rounds in an `int`; the overflow for `m ≥ 10` is not modelled. -/
def computeOmega2 {n : ℕ} [NeZero n] (N : Ntl n) (dual : Mat n) : Vec n :=
  let LL := -dual.transpose
  let LU := N.lll LL
  N.latticeSolve LL (searchShort LU.1 (LU.1 (shortIndex LU.1)))

/-- `CheckOmega` (barvinok.cpp lines 149–184): when the kernel vector of the rows `Z, U` is of one
sign, replace `Z` by `-Z`. -/
def checkOmega {n : ℕ} (N : Ntl n) (U : Mat n) (Z : Vec n) : Vec n :=
  let k := N.kernel (Fin.cons Z U)
  if (∀ i, 0 ≤ k i) ∨ (∀ i, k i ≤ 0) then -Z else Z

/-- `MatrixGCD` (barvinok.cpp lines 186–199): every row is divided by its gcd (zero entries are
left alone). -/
def matrixGCD {n : ℕ} (B : Mat n) : Mat n :=
  fun i j => if B i j ≠ 0 then B i j / rowGcd (B i) else B i j

/-! ## One step -/

/-- `Dets[i]` of `computeAndCheckDeterminants` (barvinok.cpp lines 284–296): the determinant of the
generator matrix with row `i` overwritten by `Z`. -/
def detsOf {n : ℕ} (G : Mat n) (Z : Vec n) : Vec n := fun i => (G.updateRow i Z).det

/-- Result of `computeAndCheckDeterminants` (lines 279–304): every new determinant is strictly
smaller in absolute value. -/
def decreases {n : ℕ} (G : Mat n) (det : ℤ) (Z : Vec n) : Prop := ∀ i, |detsOf G Z i| < |det|

instance {n : ℕ} (G : Mat n) (det : ℤ) (Z : Vec n) : Decidable (decreases G det Z) := by
  unfold decreases; infer_instance

/-- `createFacetMatrix` (convert.cpp lines 61–80): facet `i` times `determinant / facet_divisor`.
A NULL facet list or a failing assertion is `none`. -/
def createFacetMatrix {n : ℕ} (C : Cone n) : Option (Mat n) :=
  match C.facets with
  | none => none
  | some F =>
    if ∀ i, C.determinant % C.facetDivisors i = 0 then
      some fun i j => F i j * (C.determinant / C.facetDivisors i)
    else none

/-- The choice of the short vector in `barvinokStep`, case `LatteLLL` (barvinok.cpp lines
325–347): first try, otherwise the exhaustive second loop, whose success is asserted. -/
def chooseOmega {n : ℕ} [NeZero n] (N : Ntl n) (C : Cone n) : Option (Vec n) :=
  match createFacetMatrix C with
  | none => none
  | some dual =>
    let Z := checkOmega N C.rays (computeOmega0 N dual)
    if decreases C.rays C.determinant Z then some Z
    else
      let Z := checkOmega N C.rays (computeOmega2 N dual)
      if decreases C.rays C.determinant Z then some Z else none

/-- Cone number `i` of `barvinokStep` (barvinok.cpp lines 365–396) before its facets are computed:
ray `i` replaced by `Z`, coefficient times both signs, vertex copied. -/
def childCone {n : ℕ} (C : Cone n) (Z : Vec n) (i : Fin n) : Cone n :=
  { coefficient := C.coefficient * C.determinant.sign * (detsOf C.rays Z i).sign
    vertex := C.vertex
    rays := C.rays.updateRow i Z
    determinant := detsOf C.rays Z i
    facets := none
    facetDivisors := 0
    dualDeterminant := 0 }

/-- The cones of `barvinokStep` for a chosen vector (lines 361–397): `none` stands for the NULL
entry of a zero determinant. The inner failure of `computeDetAndFacets` (impossible, since the
determinant is not zero) would abort; it is folded into `none` and excluded by a theorem. -/
def childrenOf {n : ℕ} (C : Cone n) (Z : Vec n) (i : Fin n) : Option (Cone n) :=
  if detsOf C.rays Z i = 0 then none else computeDetAndFacets (childCone C Z i)

/-- `barvinokStep` (barvinok.cpp lines 310–399), returning the vector used and the cones. -/
def barvinokStep {n : ℕ} [NeZero n] (N : Ntl n) (C : Cone n) :
    Option (Vec n × (Fin n → Option (Cone n))) :=
  match chooseOmega N C with
  | none => none
  | some Z => some (Z, childrenOf C Z)

/-! ## The recursion -/

/-- `BarvinokParameters::decomposition`: dual cones or primal (irrational) cones. The two
irrational variants differ only before the recursion starts. -/
inductive Mode | dual | primal
  deriving DecidableEq

/-- The parameters of the recursion: NTL, mode, `max_determinant`, and the consumer: `accept out C`
is false when `ConsumeCone(C)` returns -1 after having consumed the cones `out`. -/
structure Params (n : ℕ) where
  ntl : Ntl n
  mode : Mode
  maxDet : ℤ
  accept : List (Cone n) → Cone n → Bool

/-- `isConeIrrational` (Irrational.cpp lines 350–369): no facet normal has an integral product with
the vertex. The code tests the product with the scaled vertex modulo the common denominator; here
the product with the rational vertex is tested for being an integer. -/
def isConeIrrational {n : ℕ} (C : Cone n) : Prop :=
  match C.facets with
  | none => True
  | some F => ∀ i, (∑ k, (F i k : ℚ) * C.vertex k).den ≠ 1

instance {n : ℕ} (C : Cone n) : Decidable (isConeIrrational C) := by
  unfold isConeIrrational; split <;> infer_instance

/-- `criterion_abs_det` (barvinok.cpp lines 426–439). -/
def criterion {n : ℕ} (mode : Mode) (C : Cone n) : ℤ :=
  match mode with
  | .dual => |C.dualDeterminant|
  | .primal => |C.determinant|

/-- How a call of `barvinok_DFS` ends: return value 1 (`ok = true`) or -1, with everything consumed
so far (oldest first) and the statistics `Max_Depth`; a `NotIrrationalException`; or a failed
assertion. -/
inductive Outcome (n : ℕ)
  | done (ok : Bool) (out : List (Cone n)) (maxDepth : ℕ)
  | notIrrational
  | abort

/-- `deliver_cone` (barvinok.cpp lines 401–424): in dual mode the cone is dualized first. The
progress counter is not modelled. -/
def deliver {n : ℕ} (P : Params n) (C : Cone n) (out : List (Cone n)) (maxDepth : ℕ) : Outcome n :=
  match P.mode with
  | .dual =>
    match dualizeCone C with
    | none => .abort
    | some D => .done (P.accept out D) (out ++ [D]) maxDepth
  | .primal => .done (P.accept out C) (out ++ [C]) maxDepth

/-- The selection of the next cone (barvinok.cpp lines 535–543): the first index of least non-zero
value below `max + 1`. State: (current, min). -/
def pickMin {n : ℕ} (dets : Vec n) (max : ℤ) : Option (Fin n) :=
  ((List.finRange n).foldl (fun (s : Option (Fin n) × ℤ) j =>
    if dets j < s.2 ∧ dets j ≠ 0 then (some j, dets j) else s) (none, max + 1)).1

/-- `max` (lines 491–502): the largest absolute value, starting from -1. -/
def maxDets {n : ℕ} (dets : Vec n) : ℤ :=
  (List.finRange n).foldl (fun (m : ℤ) i => if dets i > m then dets i else m) (-1)

/-- The order in which the do-while loop (lines 534–550) visits the children: repeatedly pick, then
mark done by zeroing. `fuel` bounds the number of rounds; `n` rounds suffice (`order_perm`). -/
def orderAux {n : ℕ} (max : ℤ) : ℕ → Vec n → List (Fin n)
  | 0, _ => []
  | fuel + 1, dets =>
    match pickMin dets max with
    | none => []
    | some j => j :: orderAux max fuel (Function.update dets j 0)

/-- Visiting order of the children for the determinants left in `Dets`. -/
def order {n : ℕ} (dets : Vec n) : List (Fin n) :=
  orderAux (maxDets fun i => |dets i|) n (fun i => |dets i|)

theorem computeDetAndFacets_determinant {n : ℕ} {C D : Cone n}
    (h : computeDetAndFacets C = some D) : D.determinant = C.rays.det := by
  unfold computeDetAndFacets at h
  split at h
  · cases h
  · split at h
    · cases h
    · simp only at h
      split at h
      · cases h; rfl
      · cases h

/-- Every cone returned by a step has a strictly smaller recorded determinant: this is what makes
`barvinok_DFS` terminate, and what Lean needs to accept `dfs` below. -/
theorem step_decreases {n : ℕ} [NeZero n] {N : Ntl n} {C : Cone n} {Z : Vec n}
    {ch : Fin n → Option (Cone n)} (h : barvinokStep N C = some (Z, ch)) :
    ∀ j c, ch j = some c → c.determinant.natAbs < C.determinant.natAbs := by
  have hdec : decreases C.rays C.determinant Z ∧ ch = childrenOf C Z := by
    unfold barvinokStep at h
    split at h
    · cases h
    · rename_i Z' hZ
      cases h
      refine ⟨?_, rfl⟩
      unfold chooseOmega at hZ
      split at hZ
      · cases hZ
      · simp only at hZ
        split at hZ
        · cases hZ; assumption
        · split at hZ
          · cases hZ; assumption
          · cases hZ
  obtain ⟨hdec, rfl⟩ := hdec
  intro j c hc
  unfold childrenOf at hc
  split at hc
  · cases hc
  · have := computeDetAndFacets_determinant hc
    have h2 := hdec j
    rw [this]
    rw [Int.abs_eq_natAbs, Int.abs_eq_natAbs] at h2
    exact_mod_cast h2

mutual
/-- `barvinok_DFS` (barvinok.cpp lines 441–554). `depth` is `Current_Depth`, `maxDepth` is
`Max_Depth`, `out` the cones consumed so far. The cone counters are not modelled. The case that
`barvinokStep` returns false belongs to the experimental `SubspaceAvoidingLLL` variant, modelled
in `Avoid.lean`; a failed assertion of the step is `abort`. -/
def dfs {n : ℕ} [NeZero n] (P : Params n) (C : Cone n) (depth : ℕ) (out : List (Cone n))
    (maxDepth : ℕ) : Outcome n :=
  let maxDepth := if depth > maxDepth then depth else maxDepth
  let absDet := criterion P.mode C
  if absDet = 0 then .done true out maxDepth
  else if P.mode = .primal ∧ ¬ isConeIrrational C then .notIrrational
  else if P.maxDet = 0 ∨ absDet ≤ P.maxDet then deliver P C out maxDepth
  else
    match _h : barvinokStep P.ntl C with
    | none => .abort
    | some (Z, ch) =>
      if P.mode = .primal ∧ ¬ ∀ i, ∀ c ∈ ch i, isConeIrrational c then .notIrrational
      else loop P C.determinant.natAbs ch (step_decreases _h) (order (detsOf C.rays Z))
        (depth + 1) out maxDepth
termination_by (C.determinant.natAbs, 1, 0)
decreasing_by exact Prod.Lex.right _ (Prod.Lex.left _ _ (by decide))

/-- The do-while loop of `barvinok_DFS` (lines 534–550), over the children in visiting order; it
stops when a recursive call returned -1. A NULL child would be dereferenced (`abort`). -/
def loop {n : ℕ} [NeZero n] (P : Params n) (N : ℕ) (ch : Fin n → Option (Cone n))
    (hN : ∀ j c, ch j = some c → c.determinant.natAbs < N) :
    List (Fin n) → ℕ → List (Cone n) → ℕ → Outcome n
  | [], _, out, maxDepth => .done true out maxDepth
  | j :: js, depth, out, maxDepth =>
    match h : ch j with
    | none => .abort
    | some c =>
      match dfs P c depth out maxDepth with
      | .done true out maxDepth => loop P N ch hN js depth out maxDepth
      | r => r
termination_by js => (N, 0, js.length)
decreasing_by
  · exact Prod.Lex.left _ _ (hN j c h)
  · exact Prod.Lex.right _ (Prod.Lex.right _ (by simp))
end

/-! ## Entry points -/

/-- `BarvinokParameters::DecompositionType` (barvinok.h). -/
inductive Variant | dual | irrationalPrimal | irrationalAllPrimal
  deriving DecidableEq

/-- The recursion only distinguishes dual from primal. -/
def Variant.mode : Variant → Mode
  | .dual => .dual
  | .irrationalPrimal => .primal
  | .irrationalAllPrimal => .primal

/-- `barvinok_Single` (barvinok.cpp lines 206–264). `none` is `exit(2)`/`exit(3)` or an assertion.
`irr C` is the vertex chosen by `irrationalizeCone` (modelled elsewhere), which changes nothing
else. -/
def barvinokSingle {n : ℕ} [NeZero n] (P : Params n) (v : Variant) (irr : Cone n → Fin n → ℚ)
    (B : Mat n) (vertex : Fin n → ℚ) (out : List (Cone n)) (maxDepth : ℕ) : Outcome n :=
  if B.det = 0 then .abort
  else
    let C : Cone n :=
      { coefficient := 1, vertex := vertex, rays := matrixGCD B, determinant := B.det
        facets := none, facetDivisors := 0, dualDeterminant := 0 }
    match v with
    | .dual | .irrationalAllPrimal =>
      match computeDetAndFacets C with
      | none => .abort
      | some C => dfs P C 0 out maxDepth
    | .irrationalPrimal =>
      match dualizeCone C with
      | none => .abort
      | some C => dfs P { C with vertex := irr C } 0 out maxDepth

/-- `barvinokDecomposition_Single` (barvinok.cpp lines 562–582), after triangulation: the simplices
`T` (ray matrices) of one cone with the given vertex are decomposed one by one until one returns
-1. -/
def barvinokDecompositionSingle {n : ℕ} [NeZero n] (P : Params n) (v : Variant)
    (irr : Cone n → Fin n → ℚ) (vertex : Fin n → ℚ) :
    List (Mat n) → List (Cone n) → ℕ → Outcome n
  | [], out, maxDepth => .done true out maxDepth
  | B :: Bs, out, maxDepth =>
    match barvinokSingle P v irr B vertex out maxDepth with
    | .done true out maxDepth => barvinokDecompositionSingle P v irr vertex Bs out maxDepth
    | r => r

end Verif.Barvinok
