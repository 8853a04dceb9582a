import Verif.RatVec.Model
import Verif.Residue.Model
import Verif.Lawrence.Model
import Verif.Trie.DecModel

/-!
# Model of `class PolytopeValuation`

Models code/latte/valuation/PolytopeValuation.cpp: the constructor's distinction of the two input
formats, `convertToOneCone`, the dilation functions, `factorial`, `lcm`, the dilation factors, `findIntegral` for polynomials and for
sums of powers of linear forms, `findIntegralUsingTriangulation`, `findVolume` with its two methods, and the two triangulation drivers.
`findIntegralUsingLawrence` is modelled in `Verif.Lawrence.Model`, `integrateLinFormSum` in `Verif.Residue.Model`, the stored sums in
`Verif.Trie`, rational vectors in `Verif.RatVec.Model`.

`ZZ` is `ℤ`, `RationalNTL` is `ℚ` (C01–C03). The routine `triangulateCone` (third-party triangulation engines) is an arbitrary function
`T`, indexed by the number of the call. Random numbers are lists of draws. Failed assertions, exits, NTL errors and out-of-bounds
accesses are `none`. `setFullDimension` and `setLatticeInverse` are not modelled (full-dimensional polytopes only).
The update of the integer-scale cache of a vertex by a query is not recorded in the state (C06 shows that it is not observable).
-/

namespace Verif.Valuation

open Latte.RatVec Latte.Residue Verif.Trie

/-- The parts of `listCone` (cone.h:64–86) used here. -/
structure VCone where
  vertex : RVec
  rays : List (List ℤ)
  coef : ℤ

/-- The members of `PolytopeValuation` (PolytopeValuation.h:40–75): `vertexRayCones`, the rays of
`polytopeAsOneCone`, `triangulatedPoly`; NULL is `none`. -/
structure PV where
  numOfVars : ℕ
  numOfVarsOneCone : ℕ
  vertexRayCones : Option (List VCone)
  oneCone : Option (List (List ℤ))
  tri : Option (List VCone)

/-- PolytopeValuation.cpp:18–44 constructor, `p->homogenized == false`: the tangent cones are given. -/
def ofCones (n : ℕ) (cones : List VCone) : PV := ⟨n, n + 1, some cones, none, none⟩

/-- PolytopeValuation.cpp:45–50 constructor, `p->homogenized == true`: one cone whose rays are `[vertex, 1]` up to scaling; the
number of variables counts the last coordinate. -/
def ofHomogenized (n1 : ℕ) (rays : List (List ℤ)) : PV := ⟨n1, n1, none, some rays, none⟩

/-- PolytopeValuation.cpp:111–133 one ray of the lifted cone: the integer multiple of the vertex and the scale factor. -/
def liftVertex (v : RVec) : List ℤ := (scale v).1 ++ [(scale v).2.1]

/-- PolytopeValuation.cpp:85–150 `convertToOneCone`; the rays are prepended one by one. -/
def convertToOneCone (p : PV) : Option PV :=
  if p.oneCone.isSome then some p
  else if p.tri.isSome then some p
  else match p.vertexRayCones with
    | none => none
    | some cs => if p.numOfVars + 1 ≠ p.numOfVarsOneCone then none
        else some { p with oneCone := some ((cs.map fun c => liftVertex c.vertex).reverse) }

/-- PolytopeValuation.cpp:159–174 `dilatePolytopeOneCone` on one ray; `assert(divide(...))`. -/
def dilateRay (k : ℕ) (factor : ℤ) (r : List ℤ) : Option (List ℤ) :=
  let a := r.getD (k - 1) 0
  if a ≠ 0 ∧ a ∣ factor then some ((r.map (· * (factor / a))).set (k - 1) factor) else none

/-- PolytopeValuation.cpp:159–174 `dilatePolytopeOneCone`. -/
def dilateOneCone (p : PV) (factor : ℤ) : Option PV :=
  match p.oneCone with
  | none => none
  | some rs => (rs.mapM (dilateRay p.numOfVarsOneCone factor)).map fun rs' => { p with oneCone := some rs' }

/-- PolytopeValuation.cpp:182–190 `dilatePolytopeVertexRays` by an integer. -/
def dilateVertexRays (p : PV) (factor : ℤ) : PV :=
  { p with vertexRayCones := p.vertexRayCones.map fun cs => cs.map fun c => { c with vertex := scalarMul c.vertex factor 1 } }

/-- PolytopeValuation.cpp:1275–1278 `lcm`. -/
def lcmPV (a b : ℤ) : ℤ := (a * b).fdiv (Int.gcd a b : ℤ)

/-- PolytopeValuation.cpp:346–362 `findDilationFactorOneCone`. -/
def dilationFactorOneCone (k : ℕ) (rs : List (List ℤ)) : ℤ := rs.foldl (fun f r => lcmPV f (r.getD (k - 1) 0)) 1

/-- PolytopeValuation.cpp:365–380 `findDilationFactorVertexRays`. -/
def dilationFactorVertexRays (cs : List VCone) : ℤ :=
  cs.foldl (fun f c => c.vertex.ents.foldl (fun f e => lcmPV f e.2) f) 1

/-- PolytopeValuation.cpp:428–439 (also 844–855): dilation of the polytope; returns the factor. -/
def dilatePV (p : PV) : Option (ℤ × PV) :=
  if p.numOfVars ≠ p.numOfVarsOneCone then
    match p.vertexRayCones with
    | none => none
    | some cs => let f := dilationFactorVertexRays cs; some (f, dilateVertexRays p f)
  else
    match p.oneCone with
    | none => none
    | some rs => let f := dilationFactorOneCone p.numOfVarsOneCone rs; (dilateOneCone p f).map fun q => (f, q)

/-- PolytopeValuation.cpp:221–247 the loop of `dilatePolynomialToLinearForms`: constant term, number of constant terms, transformed
polynomial. A negative total degree is an NTL error. -/
def dilLoop (D : ℤ) : List (Term ℚ) → ℚ → ℕ → Sum ℚ → Option (ℚ × ℕ × Sum ℚ)
  | [], c, k, s => some (c, k, s)
  | t :: ts, c, k, s =>
    let deg := t.exps.foldl (fun a e => a + e) 0
    if deg < 0 then none
    else
      let q := t.coef / (D : ℚ) ^ deg.toNat
      if deg = 0 then dilLoop D ts (c + q) (k + 1) s
      else (insertSum s ⟨q, t.exps, -1⟩).bind fun s' => dilLoop D ts c k s'

/-- PolytopeValuation.cpp:200–280 `dilatePolynomialToLinearForms`; returns the linear forms and the constant term. -/
def dilatePolynomial (fuel rounds : ℕ) (poly : Sum ℚ) (D : ℤ) : Option (Sum ℚ × ℚ) :=
  (drain fuel rounds (begin' poly.trie poly.varCount)).bind fun ts =>
  (dilLoop D ts 0 0 ⟨0, poly.varCount, none⟩).bind fun r =>
  let (c, k, s) := r
  if poly.termCount ≠ s.termCount + k ∨ 1 < k then none
  else if s.termCount = 0 then some (⟨0, poly.varCount, none⟩, c)
  else (decompose fuel rounds s.varCount s.trie).map fun lf => (lf, c)

/-- PolytopeValuation.cpp:306–327 the loop of `dilateLinearForms`. -/
def dilFormLoop (D : ℤ) : List (Term ℚ) → ℚ → Sum ℚ → Option (Sum ℚ × ℚ)
  | [], c, s => some (s, c)
  | t :: ts, c, s =>
    if t.degree ≠ 0 then
      if t.degree < 0 then none
      else (insertSum s ⟨t.coef / (D : ℚ) ^ t.degree.toNat, t.exps, t.degree⟩).bind fun s' => dilFormLoop D ts c s'
    else dilFormLoop D ts (c + t.coef) s

/-- PolytopeValuation.cpp:286–332 `dilateLinearForms`. -/
def dilateLinearForms (fuel rounds : ℕ) (forms : Sum ℚ) (D : ℤ) : Option (Sum ℚ × ℚ) :=
  (drain fuel rounds (begin' forms.trie forms.varCount)).bind fun ts => dilFormLoop D ts 0 ⟨0, forms.varCount, none⟩

/-- PolytopeValuation.cpp:336–343 `factorial`. -/
def factorialPV (n : ℕ) : ℤ := (List.range (n - 1)).foldl (fun (p : ℤ) (i : ℕ) => p * (((n - i : ℕ)) : ℤ)) 1

/-- PolytopeValuation.cpp:1380–1397 `triangulatePolytopeCone`. -/
def triangulateOneCone (T : ℕ → VCone → List VCone) (p : PV) : Option PV :=
  if p.tri.isSome then some p
  else match p.oneCone with
    | none => none
    | some rs => some { p with tri := some (T 0 ⟨ofDim p.numOfVarsOneCone, rs, 1⟩) }

/-- PolytopeValuation.cpp:1414–1430 the loop of `triangulatePolytopeVertexRayCone`. -/
def triangulateLoop (T : ℕ → VCone → List VCone) : ℕ → List VCone → List VCone → List VCone
  | _, [], acc => acc
  | k, c :: cs, acc => triangulateLoop T (k + 1) cs (T k c ++ acc)

/-- PolytopeValuation.cpp:1403–1443 `triangulatePolytopeVertexRayCone`. An empty result is the NULL pointer. -/
def triangulateVertexRays (T : ℕ → VCone → List VCone) (p : PV) : PV :=
  if p.tri.isSome then p
  else
    match triangulateLoop T 0 (p.vertexRayCones.getD []) [] with
    | [] => p
    | l => { p with tri := some l }

/-- newIntegration.h `simplexZZ` built from the rays of a cone, PolytopeValuation.cpp:676–702: the last coordinates are dropped, `v` is
`|det(s_j - s_0)|`. A number of rays other than `numOfVarsOneCone`, or a dimension mismatch, is an NTL error. -/
def simplexOf (d k : ℕ) (rays : List (List ℤ)) : Option Simplex :=
  if rays.length = k ∧ d + 1 = k then
    let s := rays.map fun r => r.take (k - 1)
    some ⟨d, s, |Matrix.det (Matrix.of fun (i j : Fin d) => (s.getD (i + 1) []).getD j 0 - (s.getD 0 []).getD j 0)|⟩
  else none

/-- A stored power of a linear form as `integrateLinFormSum` sees it. -/
def toLForm (t : Term ℚ) : LForm := ⟨t.coef.num, t.coef.den, t.degree.toNat, t.exps⟩

/-- PolytopeValuation.cpp:669–716 the loop over the simplices. -/
def simplexLoop (d k : ℕ) (fs : List (Term ℚ)) : List VCone → ℚ → Option ℚ
  | [], a => some a
  | c :: cs, a =>
    (simplexOf d k c.rays).bind fun S =>
    (integrateLinFormSum S (fs.map toLForm)).bind fun q =>
    if q.2 = 0 then none else simplexLoop d k fs cs (a + (q.1 : ℚ) / q.2)

/-- PolytopeValuation.cpp:655–720 `findIntegralUsingTriangulation`. -/
def integralTriangulation (fuel rounds : ℕ) (p : PV) (forms : Sum ℚ) : Option ℚ :=
  if forms.termCount = 0 then some 0
  else (drain fuel rounds (begin' forms.trie forms.varCount)).bind fun fs =>
    simplexLoop forms.varCount p.numOfVarsOneCone fs (p.tri.getD []) 0

/-- The cone as `findIntegralUsingLawrence` reads it (Perturbation.cpp:258, 281: numerators of the vertex). -/
def toLCone (c : VCone) : Latte.Lawrence.Cone := ⟨c.vertex.ents.map Prod.fst, c.rays⟩

/-- PolytopeValuation.cpp:755–825 `findIntegralUsingLawrence` on the stored forms; no cone at all is a NULL access
(Perturbation.cpp:41). -/
def integralLawrence (fuel rounds : ℕ) (p : PV) (forms : Sum ℚ) (draws : List ℕ) : Option ℚ :=
  if forms.termCount = 0 then some 0
  else match p.tri with
    | none => none
    | some cs => (drain fuel rounds (begin' forms.trie forms.varCount)).bind fun fs =>
      Latte.Lawrence.findIntegralUsingLawrence p.numOfVars p.numOfVars (cs.map toLCone)
        (fs.map fun t => ⟨t.coef, t.degree.toNat, t.exps⟩) draws

/-- PolytopeValuation.cpp:1131–1162 `findVolumeUsingDeterminant`. The determinant needs a square matrix; a zero denominator is an error. -/
def volumeDet (k : ℕ) (rays : List (List ℤ)) : Option ℚ :=
  if rays.length = k then
    let den := rays.foldl (fun d r => d * r.getD (k - 1) 0) 1 * factorialPV (rays.length - 1)
    if den = 0 then none
    else some (((|Matrix.det (Matrix.of fun (i j : Fin k) => (rays.getD i []).getD j 0)| : ℤ) : ℚ) / den)
  else none

/-- PolytopeValuation.cpp:1104–1107 sum of the volumes of the simplices. -/
def volumeLoop (k : ℕ) : List VCone → ℚ → Option ℚ
  | [], a => some a
  | c :: cs, a => (volumeDet k c.rays).bind fun v => volumeLoop k cs (a + v)

/-- NTL inner product. -/
def dotZ (a b : List ℤ) : ℤ := (List.zipWith (· * ·) a b).sum

/-- PolytopeValuation.cpp:1208–1260 the loop over the cones for a fixed `c`; `none` means a zero denominator. -/
def lawVolLoop (n : ℕ) (c : List ℤ) : List VCone → ℚ → Option ℚ
  | [], a => some a
  | k :: ks, a =>
    let num := dotZ (scale k.vertex).1 c ^ n * (Latte.Lawrence.absDet n k.rays * k.coef)
    let den := k.rays.foldl (fun d r => d * -dotZ c r) ((scale k.vertex).2.1 ^ n)
    if den = 0 then none else lawVolLoop n c ks (a + (num : ℚ) / den)

/-- PolytopeValuation.cpp:1199–1262 the do-while loop; `rand() % 10000` for each coordinate. `none`: the draws ran out. -/
def lawVolSearch (n : ℕ) (cs : List VCone) : ℕ → List ℕ → Option ℚ
  | 0, _ => none
  | fuel + 1, draws =>
    if draws.length < n then none
    else
      match lawVolLoop n ((draws.take n).map fun r => ((r % 10000 : ℕ) : ℤ)) cs 0 with
      | some a => some a
      | none => lawVolSearch n cs fuel (draws.drop n)

/-- PolytopeValuation.cpp:1183–1269 `findVolumeUsingLawrence`. -/
def volumeLawrence (p : PV) (draws : List ℕ) : Option ℚ :=
  (lawVolSearch p.numOfVars (p.tri.getD []) (draws.length + 1) draws).map fun a => a * (1 / (factorialPV p.numOfVars : ℚ))

/-- PolytopeValuation.h `ValuationAlgorithm`: the two methods. -/
inductive Method where
  | triangulation
  | cone
deriving DecidableEq

/-- PolytopeValuation.cpp:1091–1120 `findVolume`. -/
def findVolume (T : ℕ → VCone → List VCone) (m : Method) (draws : List ℕ) (p : PV) : Option (ℚ × PV) :=
  match m with
  | .triangulation =>
    (convertToOneCone p).bind fun p =>
    (triangulateOneCone T p).bind fun p =>
    (volumeLoop p.numOfVarsOneCone (p.tri.getD []) 0).map fun v => (v, p)
  | .cone =>
    let p := triangulateVertexRays T p
    (volumeLawrence p draws).map fun v => (v, p)

/-- PolytopeValuation.cpp:453–492 and 868–912: from the dilated polytope and the dilated linear forms to the answer. `draws` are used by
the integration, `draws'` by the volume. -/
def finish (T : ℕ → VCone → List VCone) (fuel rounds : ℕ) (m : Method) (draws draws' : List ℕ) (D : ℤ) (lf : Sum ℚ) (c : ℚ) (p : PV) :
    Option (ℚ × PV) :=
  match m with
  | .cone =>
    let p := triangulateVertexRays T p
    (integralLawrence fuel rounds p lf draws).bind fun a =>
    if c ≠ 0 then
      (findVolume T .cone draws' p).map fun v => ((a + v.1 * c) / (D : ℚ) ^ lf.varCount, v.2)
    else some (a / (D : ℚ) ^ lf.varCount, p)
  | .triangulation =>
    (convertToOneCone p).bind fun p =>
    (triangulateOneCone T p).bind fun p =>
    (integralTriangulation fuel rounds p lf).bind fun a =>
    let a := a / (D : ℚ) ^ lf.varCount
    if c ≠ 0 then
      (findVolume T .triangulation [] p).map fun v =>
        (a + (if p.numOfVars ≠ p.numOfVarsOneCone then v.1 * c / (D : ℚ) ^ lf.varCount else v.1 * c), v.2)
    else some (a, p)

/-- PolytopeValuation.cpp:400–412 `findIntegral` of a polynomial, 830–917 `findIntegralPolynomialToLinearForms`. -/
def findIntegralPoly (T : ℕ → VCone → List VCone) (fuel rounds : ℕ) (m : Method) (draws draws' : List ℕ) (poly : Sum ℚ) (p : PV) :
    Option (ℚ × PV) :=
  (dilatePV p).bind fun q =>
  (dilatePolynomial fuel rounds poly q.1).bind fun l =>
  finish T fuel rounds m draws draws' q.1 l.1 l.2 q.2

/-- PolytopeValuation.cpp:417–499 `findIntegral` of a sum of powers of linear forms. -/
def findIntegralForms (T : ℕ → VCone → List VCone) (fuel rounds : ℕ) (m : Method) (draws draws' : List ℕ) (forms : Sum ℚ) (p : PV) :
    Option (ℚ × PV) :=
  (dilatePV p).bind fun q =>
  (dilateLinearForms fuel rounds forms q.1).bind fun l =>
  finish T fuel rounds m draws draws' q.1 l.1 l.2 q.2

end Verif.Valuation
