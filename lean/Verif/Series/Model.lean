import Verif.PolySubst.Model

/-!
# Model of the expression trees (`code/latte/PolyTree.cpp`), of the residue of one cone of a homogenized polytope (`code/latte/ResSingle.cpp`) and of the
driver in `code/latte/barvinok/dec.cpp` (`count --ehrhart-taylor=N`)

`ZZ` is `ℤ`, the division of NTL rounds down (`Int.fdiv`) and stops the program if the divisor is zero.  Arrays of coefficients are functions `ℕ → ℤ` of
which the entries `0, …, Degree_of_Expansion` are used.  The nodes live in the pool of the `Node_Controller` and are used again after `Reset`; pointers to
nodes are places in the pool.
-/

namespace Verif.Series

open Verif.Barvinok (Cone Mat Vec Ntl Variant Outcome Params)
open Verif.ExpSubst (Fail decompositionList)
open Verif.PolySubst (Arr)

/-! ## Expansion of expression trees -/

/-- `POLYTREE_ADD`, `POLYTREE_MUL`, `POLYTREE_DIV`, `POLYTREE_EXP`, PolyTree.h:31–36. -/
inductive Op where
  | add
  | mul
  | div
  | exp
  deriving DecidableEq

/-- A pointer to a node: a `PolyTree_Node` or a `T_Node` of the pool. -/
inductive Ref where
  | poly (i : ℕ)
  | tn (i : ℕ)

/-- `PolyTree_Node`, PolyTree.h:50–74.  `num` is `Number_of_Children`; for a power it is the exponent. -/
structure PNode where
  op : Op
  num : ℕ
  child : ℕ → Ref
  dirty : Bool
  cache : Arr

/-- `T_Node`, PolyTree.h:87–99: the monomial `Coefficient * t^Exponent`. -/
structure TNode where
  coef : ℤ
  exp : ℤ

/-- `Node_Controller`, PolyTree.h:139–165: the two lists of nodes, as functions of the place in the list (a list is as long as needed), and the number of
nodes in use (`PolyTree_Node_Unused`, `T_Node_Unused`); `width` is `Dimension_Plus_One`, the length of the arrays `Children`, and `degree + 1` is the length
of the arrays `Taylor_Expansion_Result`. -/
structure Pool where
  poly : ℕ → PNode
  tn : ℕ → TNode
  usedP : ℕ
  usedT : ℕ
  width : ℕ
  degree : ℕ

/-- `Get_T_Node`, PolyTree.cpp:609–636, followed by the assignments of coefficient and exponent (as in ResSingle.cpp:299–302). -/
def getT (c x : ℤ) (p : Pool) : Ref × Pool :=
  (.tn p.usedT, { p with tn := Function.update p.tn p.usedT ⟨c, x⟩, usedT := p.usedT + 1 })

/-- `Get_PolyTree_Node`, PolyTree.cpp:571–607: the next node of the list, marked dirty; the other fields are what they were. -/
def getP (p : Pool) : ℕ × Pool :=
  (p.usedP, { p with poly := Function.update p.poly p.usedP { p.poly p.usedP with dirty := true }, usedP := p.usedP + 1 })

/-- `Get_PolyTree_Node` and the assignments of `Node_Type`, `Number_of_Children` and the first entries of `Children` (as in ResSingle.cpp:588–604).  Writing
beyond the end of `Children` is undefined.  In the program a node may be taken from the pool before its children are; only the places in the pool depend on
that. -/
def mkP (op : Op) (num : ℕ) (cs : List Ref) (p : Pool) : Except Fail (Ref × Pool) :=
  if p.width < cs.length then .error .undefined
  else
    let g := getP p
    let nd : PNode := { g.2.poly g.1 with op := op, num := num, child := fun k => cs.getD k ((g.2.poly g.1).child k) }
    .ok (.poly g.1, { g.2 with poly := Function.update g.2.poly g.1 nd })

/-- `Node_Controller::Reset`, PolyTree.cpp:638–644. -/
def Pool.reset (p : Pool) : Pool := { p with usedP := 0, usedT := 0 }

/-- The product of two expansions, in place and from the highest coefficient down, PolyTree.cpp:226–233 and 353–360. -/
def mulInPlace (d : ℕ) (t r : Arr) : Arr :=
  (List.range (d + 1)).reverse.foldl
    (fun r j => Function.update r j ((List.range' 1 j).foldl (fun x k => x + t k * r (j - k)) (r j * t 0))) r

/-- The square of an expansion, in place, PolyTree.cpp:334–348. -/
def squareInPlace (d : ℕ) (r : Arr) : Arr :=
  (List.range (d + 1)).reverse.foldl
    (fun r j => Function.update r j (if 0 < j then (List.range' 1 (j - 1)).foldl (fun x k => x + r k * r (j - k)) (r j * (2 * r 0)) else r j * r j)) r

/-- The power, PolyTree.cpp:304–365: binary, from the bit below the highest one down. -/
def powLoop (d e : ℕ) (t : Arr) : Arr :=
  (List.range (Nat.log2 e)).reverse.foldl
    (fun r b => let r := squareInPlace d r; if e.testBit b then mulInPlace d t r else r) t

/-- The inner loop of the quotient, PolyTree.cpp:269–281: the numerator of the `k`th coefficient and the power of `b_0`. -/
def quotInner (b r : Arr) (k : ℕ) : ℤ × ℤ :=
  (List.range' 1 k).foldl (fun s j => (s.1 - b j * r (k - j) * s.2, s.2 * b 0)) (0, 1)

/-- The numerators of the quotient, PolyTree.cpp:267–284. -/
def quotNum (d : ℕ) (a b : Arr) : Arr :=
  (List.range' 1 d).foldl (fun r k => let s := quotInner b r k; Function.update r k (s.1 + s.2 * a k)) (fun _ => a 0)

/-- The division by the powers of `b_0`, PolyTree.cpp:286–295. -/
def quotScale (d : ℕ) (T : ℤ) (b r : Arr) : Arr :=
  ((List.range (d + 1)).foldl (fun s k => (Function.update s.1 k ((s.1 k * T).fdiv s.2), s.2 * b 0)) (r, b 0)).1

/-- The children of a sum, PolyTree.cpp:163–173. -/
def addLoop (ev : Ref → Pool → Except Fail (Arr × Pool)) : List Ref → Arr → Pool → Except Fail (Arr × Pool)
  | [], r, p => .ok (r, p)
  | c :: cs, r, p =>
    match ev c p with
    | .error e => .error e
    | .ok (t, p) => addLoop ev cs (fun j => r j + t j) p

/-- The children of a product after the first, PolyTree.cpp:222–235. -/
def mulLoop (d : ℕ) (ev : Ref → Pool → Except Fail (Arr × Pool)) : List Ref → Arr → Pool → Except Fail (Arr × Pool)
  | [], r, p => .ok (r, p)
  | c :: cs, r, p =>
    match ev c p with
    | .error e => .error e
    | .ok (t, p) => mulLoop d ev cs (mulInPlace d t r) p

/-- The result is copied into the node, which is clean from then on, PolyTree.cpp:388–397. -/
def store (d : ℕ) (i : ℕ) (r : Arr) (p : Pool) : Pool :=
  let nd : PNode := { p.poly i with cache := fun k => if k ≤ d then r k else (p.poly i).cache k, dirty := false }
  { p with poly := Function.update p.poly i nd }

/-- The expansion of a dirty node before it is stored, PolyTree.cpp:145–385.  A power with exponent zero searches the highest bit forever. -/
def expand (d : ℕ) (T : ℤ) (ev : Ref → Pool → Except Fail (Arr × Pool)) (nd : PNode) (p : Pool) : Except Fail (Arr × Pool) :=
  match nd.op with
  | .add => addLoop ev ((List.range nd.num).map nd.child) (fun _ => 0) p
  | .mul =>
    match ev (nd.child 0) p with
    | .error e => .error e
    | .ok (r, p) => mulLoop d ev ((List.range' 1 (nd.num - 1)).map nd.child) r p
  | .div =>
    match ev (nd.child 0) p with
    | .error e => .error e
    | .ok (a, p) =>
      match ev (nd.child 1) p with
      | .error e => .error e
      | .ok (b, p) => if b 0 = 0 then .error .abort else .ok (quotScale d T b (quotNum d a b), p)
  | .exp =>
    if nd.num = 0 then .error .fuel
    else
      match ev (nd.child 0) p with
      | .error e => .error e
      | .ok (t, p) => .ok (powLoop d nd.num t, p)

/-- `Taylor_Expansion` of both kinds of nodes, PolyTree.cpp:126–398 and 401–445, up to degree `d`, with `*Ten_Power = T`.  The result is written into an array
of the caller, all of whose entries are assigned.  Storing more coefficients than the node has room for is undefined. -/
def taylor (d : ℕ) (T : ℤ) : (fuel : ℕ) → Ref → Pool → Except Fail (Arr × Pool)
  | 0, _, _ => .error .fuel
  | _ + 1, .tn i, p =>
    if (p.tn i).exp < 0 then .error .abort
    else .ok (fun k => if (k : ℤ) = (p.tn i).exp then (p.tn i).coef else 0, p)
  | fuel + 1, .poly i, p =>
    if p.degree < d then .error .undefined
    else if (p.poly i).dirty = false then .ok ((p.poly i).cache, p)
    else
      match expand d T (taylor d T fuel) (p.poly i) p with
      | .error e => .error e
      | .ok (r, p) => .ok (r, store d i r p)

/-! ## The residue of one cone -/

/-- `Generator`, PolyTree.h:103–109: `1 - r^R t^T`, or `r^R - t^T` if `rSubT`. -/
structure Gen where
  rSubT : Bool
  r : ℤ
  t : ℤ

/-- A generator as read from a ray, ResSingle.cpp:112–145: the last coordinate is the exponent of `t`. -/
def readGen {m : ℕ} (generic : Vec (m + 1)) (ray : Vec (m + 1)) : Gen :=
  ⟨false, ∑ k : Fin m, ray k.castSucc * generic k.castSucc, ray (Fin.last m)⟩

/-- The order of the pole, ResSingle.cpp:141–142. -/
def poleOrder (gs : List Gen) : ℕ := (gs.filter fun g => g.t = 0).length

/-- `Cone_Data`, PolyTree.h:112–121, after the simplification: the generators, the sign and the exponents of `r` and `t` in the numerator. -/
structure ConeData where
  gens : List Gen
  sign : ℤ
  r : ℤ
  t : ℤ

/-- Making the exponents of a generator nonnegative, ResSingle.cpp:198–240: the new generator, whether the sign changes, and what is added to the exponents of
the numerator. -/
def simplifyGen (g : Gen) : Gen × Bool × ℤ × ℤ :=
  if g.r < 0 then
    if g.t ≤ 0 then (⟨g.rSubT, -g.r, -g.t⟩, true, -g.r, -g.t)
    else (⟨true, -g.r, g.t⟩, false, -g.r, 0)
  else if g.t < 0 then (⟨true, g.r, -g.t⟩, true, 0, -g.t)
  else (g, false, 0, 0)

/-- The loop over the generators, ResSingle.cpp:194–254. -/
def simplify : List Gen → ConeData → ConeData
  | [], D => D
  | g :: gs, D =>
    let s := simplifyGen g
    simplify gs ⟨D.gens ++ [s.1], if s.2.1 then D.sign * -1 else D.sign, D.r + s.2.2.1, D.t + s.2.2.2⟩

/-- The binomial coefficients, ResSingle.cpp:381–385, 464–467 and 547–550: `c` times `R` over `k`. -/
def chooseLoop (c R : ℤ) : ℕ → ℤ
  | 0 => c
  | k + 1 => (chooseLoop c R k * (R - k)).fdiv (k + 1)

/-- A loop that makes monomials `coef k * t^x` and puts them at the places `k - off` of an array, ResSingle.cpp:381–394, 462–477, 545–558. -/
def tLoop (coef : ℕ → ℤ) (x : ℤ) (off : ℕ) : List ℕ → (ℕ → Ref) → Pool → (ℕ → Ref) × Pool
  | [], A, p => (A, p)
  | k :: ks, A, p =>
    let g := getT (coef k) x p
    tLoop coef x off ks (Function.update A (k - off) g.1) g.2

/-- The expansion of the numerator in `s = r - 1`, ResSingle.cpp:367–394. -/
def numeratorNodes (order : ℕ) (D : ConeData) (A : ℕ → Ref) (p : Pool) : (ℕ → Ref) × Pool :=
  let g := getT 1 D.t p
  tLoop (chooseLoop 1 D.r) D.t 0 (List.range' 1 order) (Function.update A 0 g.1) g.2

/-- The expansion of a generator in `s`, divided by `s` if it is a pole, ResSingle.cpp:424–477 and 508–558. -/
def generatorNodes (order : ℕ) (g : Gen) (A : ℕ → Ref) (p : Pool) : Except Fail ((ℕ → Ref) × Pool) :=
  let coef := chooseLoop (if g.rSubT then 1 else -1) g.r
  let x := if g.rSubT then 0 else g.t
  if g.t ≠ 0 then
    let one := getT 1 0 p
    let mon := getT (-1) g.t one.2
    match mkP .add 2 [one.1, mon.1] mon.2 with
    | .error e => .error e
    | .ok (r, p) => .ok (tLoop coef x 0 (List.range' 1 order) (Function.update A 0 r) p)
  else .ok (tLoop coef x 1 (List.range' 1 (order + 1)) A p)

/-- The products that make up one coefficient, ResSingle.cpp:592–602. -/
def productNodes (cur res : ℕ → Ref) (r : ℕ) : List ℕ → List Ref → Pool → Except Fail (List Ref × Pool)
  | [], out, p => .ok (out, p)
  | f :: fs, out, p =>
    match mkP .mul 2 [cur f, res (r - f)] p with
    | .error e => .error e
    | .ok (c, p) => productNodes cur res r fs (out ++ [c]) p

/-- The coefficients of `s^order, …, s^1` of the product, ResSingle.cpp:586–607. -/
def shmushLoop (cur : ℕ → Ref) : List ℕ → (ℕ → Ref) → Pool → Except Fail ((ℕ → Ref) × Pool)
  | [], res, p => .ok (res, p)
  | r :: rs, res, p =>
    match productNodes cur res r (List.range (r + 1)) [] p with
    | .error e => .error e
    | .ok (cs, p) =>
      match mkP .add (r + 1) cs p with
      | .error e => .error e
      | .ok (c, p) => shmushLoop cur rs (Function.update res r c) p

/-- Multiplying the denominator by a generator, ResSingle.cpp:581–619. -/
def shmush (order : ℕ) (cur res : ℕ → Ref) (p : Pool) : Except Fail ((ℕ → Ref) × Pool) :=
  match shmushLoop cur ((List.range' 1 order).reverse) res p with
  | .error e => .error e
  | .ok (res, p) =>
    match mkP .mul 2 [cur 0, res 0] p with
    | .error e => .error e
    | .ok (c, p) => .ok (Function.update res 0 c, p)

/-- The loop over the generators after the first, ResSingle.cpp:502–624; `cur` is `Denominator_Current_Generator`, which keeps its contents. -/
def denominatorLoop (order : ℕ) : List Gen → (cur res : ℕ → Ref) → Pool → Except Fail ((ℕ → Ref) × Pool)
  | [], _, res, p => .ok (res, p)
  | g :: gs, cur, res, p =>
    match generatorNodes order g cur p with
    | .error e => .error e
    | .ok (cur, p) =>
      match shmush order cur res p with
      | .error e => .error e
      | .ok (res, p) => denominatorLoop order gs cur res p

/-- A power of `b_0`, ResSingle.cpp:668–671. -/
def powerNode (b0 : Ref) (e : ℕ) (p : Pool) : Except Fail (Ref × Pool) := mkP .exp e [b0] p

/-- The `j`th term of the recursion for `N_k`, ResSingle.cpp:661–738. -/
def quotientTerm (minusOne : Ref) (a b N : ℕ → Ref) (k j : ℕ) (p : Pool) : Except Fail (Ref × Pool) :=
  if j = 0 then
    match powerNode (b 0) k p with
    | .error e => .error e
    | .ok (c, p) => mkP .mul 2 [c, a k] p
  else if j = 1 then mkP .mul 3 [minusOne, b 1, N (k - 1)] p
  else if j = 2 then mkP .mul 4 [minusOne, b 0, b 2, N (k - 2)] p
  else
    match powerNode (b 0) (j - 1) p with
    | .error e => .error e
    | .ok (c, p) => mkP .mul 4 [minusOne, c, b j, N (k - j)] p

/-- The terms of `N_k`. -/
def quotientTerms (minusOne : Ref) (a b N : ℕ → Ref) (k : ℕ) : List ℕ → List Ref → Pool → Except Fail (List Ref × Pool)
  | [], out, p => .ok (out, p)
  | j :: js, out, p =>
    match quotientTerm minusOne a b N k j p with
    | .error e => .error e
    | .ok (c, p) => quotientTerms minusOne a b N k js (out ++ [c]) p

/-- The recursion `N_k = b_0^k a_k - b_1 N_{k-1} - b_0 b_2 N_{k-2} - …`, ResSingle.cpp:653–746. -/
def quotientLoop (minusOne : Ref) (a b : ℕ → Ref) : List ℕ → (ℕ → Ref) → Pool → Except Fail ((ℕ → Ref) × Pool)
  | [], N, p => .ok (N, p)
  | k :: ks, N, p =>
    match quotientTerms minusOne a b N k (List.range (k + 1)) [] p with
    | .error e => .error e
    | .ok (cs, p) =>
      match mkP .add (k + 1) cs p with
      | .error e => .error e
      | .ok (c, p) => quotientLoop minusOne a b ks (Function.update N k c) p

/-- The quotient and its sign, ResSingle.cpp:797–826. -/
def finalNode (minusOne : Ref) (sign : ℤ) (order : ℕ) (b N : ℕ → Ref) (p : Pool) : Except Fail (Ref × Pool) :=
  match powerNode (b 0) (order + 1) p with
  | .error e => .error e
  | .ok (c, p) =>
    match mkP .div 2 [N order, c] p with
    | .error e => .error e
    | .ok (q, p) => if sign = 1 then .ok (q, p) else mkP .mul 2 [minusOne, q] p

/-- The expression of a cone, ResSingle.cpp:281–285 and 365–826.  `junk` is what the arrays of pointers contain at first. -/
def coneExpression (junk : ℕ → Ref) (order : ℕ) (D : ConeData) (p : Pool) : Except Fail (Ref × Pool) :=
  let minus := getT (-1) 0 p
  let num := numeratorNodes order D junk minus.2
  match D.gens with
  | [] => .error .undefined
  | g :: gs =>
    match generatorNodes order g junk num.2 with
    | .error e => .error e
    | .ok (res, p) =>
      match denominatorLoop order gs junk res p with
      | .error e => .error e
      | .ok (res, p) =>
        match quotientLoop minus.1 num.1 res (List.range' 1 order) (Function.update junk 0 (num.1 0)) p with
        | .error e => .error e
        | .ok (N, p) => finalNode minus.1 D.sign order res N p

/-- The number of terms computed, ResSingle.cpp:46–49. -/
def expansionDegree (degree : ℕ) : ℕ := if 1 < degree then degree else 1

/-- `ResidueFunction_Single_Cone`, ResSingle.cpp:40–880, for one cone, without the output of rational functions.  `acc` is `Taylor_Expansion_Result`, with
`degree + 1` entries.  The status -1 is the error `notGeneric`. -/
def residueFunctionSingle {m : ℕ} (junk : ℕ → Ref) (T : ℤ) (degree : ℕ) (generic : Vec (m + 1)) (C : Cone (m + 1)) (acc : Arr) (p : Pool) :
    Except Fail (Arr × Pool) :=
  if C.vertex ≠ 0 then .error .abort
  else if |C.determinant| ≠ 1 then .error .abort
  else
    let gs := List.ofFn fun i => readGen generic (C.rays i)
    if gs.any fun g => g.r = 0 ∧ g.t = 0 then .error .notGeneric
    else
      let order := poleOrder gs
      match coneExpression junk order (simplify gs ⟨[], C.coefficient, 0, 0⟩) p with
      | .error e => .error e
      | .ok (root, p) =>
        match taylor (expansionDegree degree) T (p.usedP + 1) root p with
        | .error e => .error e
        | .ok (r, p) =>
          if degree < expansionDegree degree then .error .undefined
          else .ok (fun k => if k ≤ expansionDegree degree then acc k + r k else acc k, p.reset)

/-! ## The driver -/

/-- All cones of a round, dec.cpp:181–198 with `DUAL_APPROACH`. -/
def totalSeries {m : ℕ} (junk : ℕ → Ref) (T : ℤ) (degree : ℕ) (generic : Vec (m + 1)) : List (Cone (m + 1)) → Arr → Pool → Except Fail (Arr × Pool)
  | [], acc, p => .ok (acc, p)
  | C :: Cs, acc, p =>
    match residueFunctionSingle junk T degree generic C acc p with
    | .error e => .error e
    | .ok (acc, p) => totalSeries junk T degree generic Cs acc p

/-- The status of `ConsumeCone`: the cone is rejected if one of its rays is orthogonal to the vector and at height zero. -/
def acceptSeries {m : ℕ} (generic : Vec (m + 1)) (C : Cone (m + 1)) : Bool :=
  !((List.ofFn fun i => readGen generic (C.rays i)).any fun g => g.r = 0 ∧ g.t = 0)

/-- One round of the loop of `barvinokDecomposition_List`, dec.cpp:140–161, with `InitializeComputation` (167–179).  The first component is the array, or `none`
if the vector was not generic.  The cones are used after the decomposition instead of one by one; also in a round that fails the nodes of the pool are used by the
cones before the rejected one (the last), which is rejected before it takes nodes. -/
def seriesOnce {m : ℕ} (N : Ntl (m + 1)) (v : Variant) (irr : Cone (m + 1) → Fin (m + 1) → ℚ) (maxDet : ℤ) (junk : ℕ → Ref) (T : ℤ) (degree : ℕ)
    (cones : List ((Fin (m + 1) → ℚ) × List (Mat (m + 1)))) (generic : Vec (m + 1)) (p : Pool) : Except Fail (Option Arr × Pool) :=
  match decompositionList ⟨N, v.mode, maxDet, fun _ C => acceptSeries generic C⟩ v irr cones [] 0 with
  | .done true out _ =>
    match totalSeries junk T degree generic out (fun _ => 0) p with
    | .error e => .error e
    | .ok (r, p) => .ok (some r, p)
  | .done false out _ =>
    match totalSeries junk T degree generic out.dropLast (fun _ => 0) p with
    | .error e => .error e
    | .ok (_, p) => .ok (none, p)
  | .notIrrational => .error .abort
  | .abort => .error .abort

/-- The retry loop of `barvinokDecomposition_List`, dec.cpp:137–163. -/
def seriesLoop {m : ℕ} (N : Ntl (m + 1)) (v : Variant) (irr : Cone (m + 1) → Fin (m + 1) → ℚ) (maxDet : ℤ) (junk : ℕ → Ref) (T : ℤ) (degree : ℕ)
    (cones : List ((Fin (m + 1) → ℚ) × List (Mat (m + 1)))) : (tries : ℕ) → (guesses : ℕ → Vec (m + 1)) → Pool → Except Fail Arr
  | 0, _, _ => .error .fuel
  | tries + 1, guesses, p =>
    match seriesOnce N v irr maxDet junk T degree cones (guesses 0) p with
    | .error e => .error e
    | .ok (some r, _) => .ok r
    | .ok (none, p) => seriesLoop N v irr maxDet junk T degree cones tries (fun i => guesses (i + 1)) p

/-- `decomposeAndComputeResidue`, dec.cpp:200–285, with `DUAL_APPROACH`: the coefficients returned.  `p` is the pool as constructed (PolyTree.cpp:540–569),
apart from the width and the degree, which are set here.  For degree one only the number of lattice points is delivered, as the second coefficient. -/
def ehrhartTaylor {m : ℕ} (N : Ntl (m + 1)) (v : Variant) (irr : Cone (m + 1) → Fin (m + 1) → ℚ) (maxDet : ℤ) (junk : ℕ → Ref) (degree : ℕ)
    (cones : List ((Fin (m + 1) → ℚ) × List (Mat (m + 1)))) (tries : ℕ) (guesses : ℕ → Vec (m + 1)) (p : Pool) : Except Fail (List ℤ) :=
  let T := PolySubst.tenPowerConst
  match seriesLoop N v irr maxDet junk T degree cones tries guesses { p.reset with width := (m + 1) + 1 + 1, degree := degree } with
  | .error e => .error e
  | .ok r =>
    if 1 < degree then .ok ((List.range (degree + 1)).map fun i => (r i + T.fdiv 2).fdiv T)
    else if degree = 1 then .ok [0, (r 1 + T.fdiv 2).fdiv T]
    else .ok [0]

end Verif.Series
