import Verif.Knapsack.Model
import Verif.Preprocess.Model
import Verif.Barvinok.Model
import Verif.PolySubst.Offline

/-!
# `top-ehrhart-knapsack` (model)

Models code/latte/top-knapsack/TopKnapsack.cpp from `TopKnapsack::set` to `packageAnswer` (lines 195–1256), on top of the models of its gcd lists, Möbius weights,
Bernoulli numbers and binomials (Verif/Knapsack), of `ihermite` (Verif/Preprocess) and of the cone decomposition (Verif/Barvinok, Verif/PolySubst).

`ZZ` is `ℤ`, `RationalNTL` is `ℚ` (C01). A `PeriodicFunction` is represented by the function of `T` it denotes (C32 proves that the operations of the class compute on
the denoted functions; C58 that the reference counted trees do not share). A `GeneralMonomialSum` in the two variables ε and x is represented by the
list of the terms inserted (C21–C23, C45 and C46 prove that the tries keep the sums of the coefficients and that multiplication multiplies within its window). The exponents are
`int`s that only take values from 0 to `2·order` here. Printing is not modelled.
-/

namespace Verif.TopK

open Latte.Knapsack (MPair)
open Verif.Barvinok (Mat Vec)

/-- How a computation can end abnormally: the fuel of the model ran out (the program would still be running), a failed assertion or `exit`, undefined behaviour, an
uncaught `LattException`. -/
inductive Fail | fuel | abort | undefined | exception
  deriving DecidableEq

/-- top-knapsack/PeriodicFunction.h: the function of `T` denoted by a `PeriodicFunction`. -/
abbrev PF := ℤ → ℚ

/-- One term `coef · ε^e · x^x` of a `GeneralMonomialSum<PeriodicFunction,int>` with `varCount = 2` (integration/GeneralMonomialSum.h). -/
structure Term where
  e : ℕ
  x : ℕ
  coef : PF

/-- The terms inserted into a `GeneralMonomialSum`. -/
abbrev GMS := List Term

/-- `GeneralMonomialSum::multiply`, GeneralMonomialSum.h:72–129, with the window `[e0,e1] × [x0,x1]`, both ends included. Lower ends `INT_MIN` are 0 here, as no
exponent is negative. -/
def mul (a b : GMS) (e0 e1 x0 x1 : ℕ) : GMS :=
  (a.flatMap fun s => b.map fun r => (⟨s.e + r.e, s.x + r.x, fun t => s.coef t * r.coef t⟩ : Term)).filter
    fun r => e0 ≤ r.e ∧ r.e ≤ e1 ∧ x0 ≤ r.x ∧ r.x ≤ x1

/-- The constant `c`: `setToConstant`, GeneralMonomialSum.h:206–224. -/
def const (c : ℚ) : GMS := [⟨0, 0, fun _ => c⟩]

/-- TopKnapsack.cpp:961–976: the loop over `m` with its accumulators `mFract` and `am`, `c` iterations left. -/
def todd (bern : List ℚ) (a : ℤ) : ℕ → ℕ → ℤ → ℚ → GMS
  | 0, _, _, _ => []
  | c + 1, m, mFract, am => ⟨0, m, fun _ => am / mFract * bern.getD m 0⟩ :: todd bern a c (m + 1) (mFract * (m + 1)) (am * a)

/-- `expandNonperiodicPart`, TopKnapsack.cpp:940–981. -/
def expandNonperiodicPart (bern : List ℚ) (order : ℕ) (l : List ℤ) : GMS :=
  l.foldl (fun g a => mul g (todd bern a (order + 1) 0 1 1) 0 0 0 order) (const 1)

/-- TopKnapsack.cpp:1019–1041: the loop over `m`, `c` iterations left, with the binomial expansion over `j` (1032–1041). -/
def todd2 (bern : List ℚ) (numPoles : ℕ) (a e : ℤ) : ℕ → ℕ → ℤ → GMS
  | 0, _, _ => []
  | c + 1, m, mFract =>
    ((List.range (min numPoles m + 1)).map fun j =>
      (⟨j, m, fun _ => 1 / (mFract : ℚ) * bern.getD m 0 * ((Latte.Knapsack.binomial 2 m j).getD 0 : ℤ) * ((e ^ j * a ^ (m - j) : ℤ) : ℚ)⟩ : Term)) ++
      todd2 bern numPoles a e c (m + 1) (mFract * (m + 1))

/-- TopKnapsack.cpp:1075–1087: the expansion of `1/(a + e ε)` up to `ε^numPoles`. -/
def geomInv (numPoles : ℕ) (a e : ℤ) : GMS :=
  (List.range (numPoles + 1)).map fun m =>
    (⟨m, 0, fun _ => (if m % 2 = 0 then 1 else -1) * ((e ^ m : ℤ) : ℚ) * (a : ℚ) ^ (-1 - (m : ℤ))⟩ : Term)

/-- One round of the second loop of `expandPeriodicPart`, TopKnapsack.cpp:1057–1089, on (`bottomCoeffPeriodicPart`, series). -/
def scaleStep (order numPoles : ℕ) (s : ℤ × GMS) (ae : ℤ × ℤ) : ℤ × GMS :=
  if ae.1 = 0 then (s.1 * ae.2, s.2)
  else if ae.2 = 0 ∨ numPoles = 0 then (s.1 * ae.1, s.2)
  else (s.1, mul s.2 (geomInv numPoles ae.1 ae.2) 0 numPoles 0 order)

/-- `expandPeriodicPart`, TopKnapsack.cpp:992–1095, on the list of the pairs (`expa[i]`, `expe[i]`). The final assertion (1092) holds, as `numPoles` counts the zeros in `expa`. -/
def expandPeriodicPart (bern : List ℚ) (order numPoles : ℕ) (l : List (ℤ × ℤ)) : ℤ × GMS :=
  l.foldl (scaleStep order numPoles)
    (1, l.foldl (fun g ae => mul g (todd2 bern numPoles ae.1 ae.2 (order + 1) 0 1) 0 numPoles 0 order) (const 1))

/-- TopKnapsack.cpp:1123–1139 `pa` and `pe`: the sum of the `c{f t}` over the pairs `(c, f)`, where `{·}` is the fractional part (`PeriodicFunction(f, false)`); zero fractions and coefficients are left out. -/
def fracSum (l : List (ℤ × ℚ)) : PF :=
  l.foldl (fun (p : PF) (cf : ℤ × ℚ) => if cf.2 = 0 then p else if cf.1 ≠ 0 then fun t => p t + Int.fract (cf.2 * (t : ℚ)) * cf.1 else p) fun _ => 0

/-- TopKnapsack.cpp:1146–1156 and 1166–1176: the loop over `m`, `c` iterations left; `ep = 1` if the power of ε is `m`, else 0. -/
def expo (p : PF) (ep : ℕ) : ℕ → ℕ → ℤ → GMS
  | 0, _, _ => []
  | c + 1, m, mFract => ⟨ep * m, m, fun t => p t ^ m / mFract⟩ :: expo p ep c (m + 1) (mFract * (m + 1))

/-- `expandExponentialPart`, TopKnapsack.cpp:1101–1180, on the list of the triples (`a[i]`, `e[i]`, `f[i]`). -/
def expandExponentialPart (order numPoles : ℕ) (l : List (ℤ × ℤ × ℚ)) : GMS :=
  let pa := fracSum (l.map fun r => (r.1, r.2.2))
  let pe := fracSum (l.map fun r => (r.2.1, r.2.2))
  let ex1 := expo pa 0 (order + 1) 0 1
  if numPoles = 0 ∨ order = 0 then ex1
  else mul ex1 (expo pe 1 (min order numPoles + 1) 0 1) 0 numPoles 0 order

/-- The product of the `bottomCoeffNonperiodicPart` loops (TopKnapsack.cpp:764–767, 1203–1206). -/
def bottomProd (l : List ℤ) : ℤ := l.foldl (fun b a => b * a) 1

/-- `expandF1Case`, TopKnapsack.cpp:1191–1235. -/
def expandF1Case (bern : List ℚ) (alpha : List ℤ) (order : ℕ) (topK : Bool) : GMS :=
  let b := bottomProd alpha
  let b := if alpha.length % 2 = 1 then b * -1 else b
  mul (expandNonperiodicPart bern order alpha) (const (1 / (b : ℚ))) 0 0 (if topK then 0 else order) order

/-! ## The lattice, the vertex and the cones of one `f` -/

variable {m : ℕ}

/-- `findLatticeBasis`, TopKnapsack.cpp:468–585: the transpose of the `U` of `ihermite` with column 0 multiplied by `f / gcd(f, s[0])`. -/
def findLatticeBasis (fuel : ℕ) (a : Fin (m + 1) → ℤ) (f : ℤ) : Option (Mat (m + 1)) :=
  (Preprocess.ihermite fuel (fun i (_ : Fin 1) => a i) fun _ => 0).map fun s =>
    fun i j => if j = 0 then s.U j i * (f / (Int.gcd f (s.S 0 0) : ℤ)) else s.U j i

/-- TopKnapsack.cpp:621–625: the gcd of a column, starting from its first entry, with the sign of the determinant. -/
def columnGcd (M : Mat (m + 1)) (neg : Bool) (j : Fin (m + 1)) : ℤ :=
  let d := ((List.finRange m).map Fin.succ).foldl (fun (g : ℤ) i => (Int.gcd g (M i j) : ℤ)) (M 0 j)
  if neg then d * -1 else d

/-- `findLatticeBasisInv`, TopKnapsack.cpp:604–633: NTL's `inv` gives the determinant and the adjugate; the result is the adjugate with scaled columns (`invLatticeBasisScaled`). -/
def scaledInv (B : Mat (m + 1)) : Mat (m + 1) :=
  fun i j => if columnGcd B.adjugate (B.det < 0) j ≠ 1 then B.adjugate i j / columnGcd B.adjugate (B.det < 0) j else B.adjugate i j

/-- `findVertex`, TopKnapsack.cpp:645–666: the first row of the `U` of `ihermite` for the column `(a, f)`, without its last entry. -/
def findVertex (fuel : ℕ) (a : Fin (m + 1) → ℤ) (f : ℤ) : Option (Fin (m + 1) → ℤ) :=
  (Preprocess.ihermite fuel (fun (i : Fin (m + 1 + 1)) (_ : Fin 1) => Fin.snoc (α := fun _ => ℤ) a f i) fun _ => 0).map fun s =>
    fun i => s.U 0 i.castSucc

/-- TopKnapsack.cpp:674–687: the cone with vertex 0 and the columns of the matrix as rays; `appendVectorToListVector` puts its vector in front. -/
def columnCone (M : Mat (m + 1)) : Barvinok.Cone (m + 1) :=
  { coefficient := 1, vertex := 0, rays := fun i k => M k i.rev, determinant := 0, facets := none, facetDivisors := 0, dualDeterminant := 0 }

/-- `findUnimodularCones`, TopKnapsack.cpp:672–698: `decomposeCones(newCone, true, params)` (barvinok/dec.cpp:62–100) dualizes the cone and decomposes the dual; the triangulation
copies a cone that is simplicial already (triangulation/triangulate.cpp:118–122). -/
def findUnimodularCones (ntl : Barvinok.Ntl (m + 1)) (M : Mat (m + 1)) : Except Fail (List (Barvinok.Cone (m + 1))) :=
  match Barvinok.dualizeCone (columnCone M) with
  | none => .error .abort
  | some D =>
    match PolySubst.decomposeCones ntl .dual (fun _ => 0) 1 [((0 : Fin (m + 1) → ℚ), [D.rays])] with
    | .error _ => .error .abort
    | .ok cones => .ok cones

/-! ## The residue of one `f` -/

/-- TopKnapsack.cpp:783–786: `<v, B g>`. -/
def pair (v : Fin (m + 1) → ℤ) (B : Mat (m + 1)) (g : Vec (m + 1)) : ℤ := ∑ k, v k * B.mulVec g k

/-- TopKnapsack.cpp:819–848: the coefficients of `B⁻¹ s` in the rays, 0 if integral. -/
def fractions (B : Mat (m + 1)) (s : Fin (m + 1) → ℤ) (G : Mat (m + 1)) (i : Fin (m + 1)) : ℚ :=
  let q : ℚ := (((G.transpose.adjugate.mulVec (B.adjugate.mulVec s)) i : ℤ) : ℚ) / ((B.det * G.transpose.det : ℤ) : ℚ)
  if q.den = 1 then 0 else q

/-- One round of the loop over the cones, TopKnapsack.cpp:775–924; `none` is the exception of line 791. -/
def coneTerms (bern : List ℚ) (order : ℕ) (topK : Bool) (len : ℕ) (a : Fin (m + 1) → ℤ) (fDiv : List ℤ) (B : Mat (m + 1)) (s : Fin (m + 1) → ℤ)
    (beta : Fin (m + 1) → ℤ) (C : Barvinok.Cone (m + 1)) : Option GMS :=
  let rays := List.finRange (m + 1)
  let ae := rays.map fun i => (pair a B (C.rays i), pair beta B (C.rays i))
  if ae.any fun p => p.1 = 0 ∧ p.2 = 0 then none
  else
    let numPoles := ae.countP fun p => p.1 = 0
    let per := expandPeriodicPart bern order numPoles ae
    let ex := expandExponentialPart order numPoles (rays.map fun i => (pair a B (C.rays i), pair beta B (C.rays i), fractions B s C.rays i))
    let g := mul (mul per.2 (expandNonperiodicPart bern order fDiv) 0 numPoles 0 order) ex 0 numPoles 0 order
    let scale : ℚ := (if len % 2 = 0 then 1 else -1) / ((bottomProd fDiv * per.1 : ℤ) : ℚ) * C.coefficient
    some (mul g (const scale) numPoles numPoles (if topK then 0 else order) order)

/-- `findResidue`, TopKnapsack.cpp:729–930, for a given random vector `beta` (735–741). -/
def findResidue (bern : List ℚ) (order : ℕ) (topK : Bool) (len : ℕ) (a : Fin (m + 1) → ℤ) (fDiv : List ℤ) (B : Mat (m + 1)) (s : Fin (m + 1) → ℤ)
    (beta : Fin (m + 1) → ℤ) : List (Barvinok.Cone (m + 1)) → Option GMS
  | [] => some []
  | C :: Cs =>
    match coneTerms bern order topK len a fDiv B s beta C with
    | none => none
    | some g =>
      match findResidue bern order topK len a fDiv B s beta Cs with
      | none => none
      | some r => some (g ++ r)

/-- TopKnapsack.cpp:419–434: the loop that draws a new vector after an exception; `rnd` gives the entries of the vector of an attempt. -/
def residueLoop (bern : List ℚ) (order : ℕ) (topK : Bool) (len : ℕ) (a : Fin (m + 1) → ℤ) (fDiv : List ℤ) (B : Mat (m + 1)) (s : Fin (m + 1) → ℤ)
    (cones : List (Barvinok.Cone (m + 1))) (rnd : ℕ → ℕ → ℤ) : ℕ → ℕ → Except Fail GMS
  | 0, _ => .error .fuel
  | c + 1, attempt =>
    match findResidue bern order topK len a fDiv B s (fun i => rnd attempt i) cones with
    | some g => .ok g
    | none => residueLoop bern order topK len a fDiv B s cones rnd c (attempt + 1)

/-- The part of `E` after the split of `alpha`, TopKnapsack.cpp:395–436. -/
def expandClass (ntl : Barvinok.Ntl (m + 1)) (fuel : ℕ) (rnd : ℕ → ℕ → ℤ) (bern : List ℚ) (order : ℕ) (topK : Bool) (len : ℕ) (a : Fin (m + 1) → ℤ)
    (fDiv : List ℤ) (f : ℤ) : Except Fail GMS :=
  match findLatticeBasis fuel a f, findVertex fuel a f with
  | some B, some s =>
    match findUnimodularCones ntl (scaledInv B) with
    | .error e => .error e
    | .ok cones => residueLoop bern order topK len a fDiv B s cones rnd fuel 0
  | _, _ => .error .fuel

/-- What a `TopKnapsack` object uses from outside: NTL in every dimension, fuel, and the random numbers (of the `i`-th gcd, attempt, coordinate). -/
structure Env where
  ntl : ∀ n, Barvinok.Ntl n
  fuel : ℕ
  rnd : ℕ → ℕ → ℕ → ℤ

/-- `E`, TopKnapsack.cpp:369–442. If `f` divides every element of `alpha`, the code accesses rows of empty matrices. -/
def expandOne (env : Env) (bern : List ℚ) (order : ℕ) (topK : Bool) (alpha : List ℤ) (i : ℕ) (f : ℤ) : Except Fail GMS :=
  if f = 1 then .ok (expandF1Case bern alpha order topK)
  else
    let fDiv := alpha.filter fun a => f ∣ a
    let fnDiv := alpha.filter fun a => ¬ f ∣ a
    match fnDiv.length with
    | 0 => .error .undefined
    | m + 1 => expandClass (env.ntl (m + 1)) env.fuel (env.rnd i) bern order topK alpha.length (fun i : Fin (m + 1) => fnDiv.getD i 0) fDiv f

/-- TopKnapsack.cpp:263–267: the series of every gcd of non-zero weight, with its gcd and weight, from index `i` on. -/
def expandAll (env : Env) (bern : List ℚ) (order : ℕ) (topK : Bool) (alpha : List ℤ) : ℕ → List MPair → Except Fail (List (ℤ × ℤ × GMS))
  | _, [] => .ok []
  | i, p :: ps =>
    if p.mu ≠ 0 then
      match expandOne env bern order topK alpha i p.gcd with
      | .error e => .error e
      | .ok g =>
        match expandAll env bern order topK alpha (i + 1) ps with
        | .error e => .error e
        | .ok r => .ok ((p.gcd, p.mu, g) :: r)
    else expandAll env bern order topK alpha (i + 1) ps

/-- TopKnapsack.cpp:303–306: `h!`. -/
def factLoop : ℕ → ℤ → ℤ → ℤ
  | 0, _, r => r
  | c + 1, j, r => factLoop c (j + 1) (r * j)

/-- TopKnapsack.cpp:308–316: the factor of a term in `x^deg`, `h = N - deg`. -/
def factor (N deg : ℕ) (gcd mu : ℤ) : ℚ :=
  let h := N - deg
  (if h % 2 = 0 then -1 else 1) * mu * gcd / (factLoop (h - 1) 2 1 : ℤ)

/-- `packageAnswer`, TopKnapsack.cpp:279–326. -/
def packageAnswer (N : ℕ) (series : List (ℤ × ℤ × GMS)) (coeffs : List PF) : List PF :=
  series.foldl (fun cs s => s.2.2.foldl (fun cs r => cs.modify r.x fun q => fun t => q t + r.coef t * factor N r.x s.1 s.2.1) cs) coeffs

/-- The members of `TopKnapsack` that survive a call (TopKnapsack.h:100–160). -/
structure Obj where
  alpha : List ℤ
  bern : List ℚ
  gcds : List MPair
  coeffs : List PF
  bySubsets : Bool

/-- The constructor, TopKnapsack.cpp:182. -/
def Obj.new : Obj := ⟨[], [], [], [], false⟩

/-- `set`, TopKnapsack.cpp:195–201. -/
def Obj.set (o : Obj) (alpha : List ℤ) : Obj := { o with alpha := alpha, bern := (Latte.Knapsack.setBernoulli alpha.length).getD [] }

/-- `useSubsetsForGCD`, TopKnapsack.cpp:207–210. -/
def Obj.useSubsetsForGCD (o : Obj) (b : Bool) : Obj := { o with bySubsets := b }

/-- `coeffsNminusk.resize(k+1)`, TopKnapsack.cpp:247: old entries are kept, new ones are the zero function. -/
def resize (l : List PF) (k : ℕ) : List PF := l.take (k + 1) ++ List.replicate (k + 1 - l.length) fun _ => 0

/-- `coeff`, TopKnapsack.cpp:241–272. -/
def Obj.coeff (o : Obj) (env : Env) (topK : Bool) (k : ℤ) : Except Fail Obj :=
  if 0 ≤ k ∧ k < o.alpha.length then
    let order := k.toNat
    match Latte.Knapsack.findGCDs o.bySubsets env.fuel o.alpha order o.gcds with
    | none => .error .fuel
    | some gcds =>
      match Latte.Knapsack.computeMobius env.fuel gcds with
      | none => .error .fuel
      | some none => .error .exception
      | some (some gcds) =>
        match expandAll env o.bern order topK o.alpha 0 gcds with
        | .error e => .error e
        | .ok series => .ok { o with gcds := gcds, coeffs := packageAnswer (o.alpha.length - 1) series (resize o.coeffs order) }
  else .error .abort

/-- `coeff_topK`, TopKnapsack.cpp:224–228. -/
def Obj.coeffTopK (o : Obj) (env : Env) (k : ℤ) : Except Fail Obj := o.coeff env true k

/-- `coeff_NminusK`, TopKnapsack.cpp:233–237. -/
def Obj.coeffNminusK (o : Obj) (env : Env) (k : ℤ) : Except Fail Obj := o.coeff env false k

/-- `getCoeffNminusK`, TopKnapsack.cpp:361–364; `none`: outside of the vector. -/
def Obj.getCoeffNminusK (o : Obj) (k : ℕ) : Option PF := o.coeffs[k]?

end Verif.TopK
