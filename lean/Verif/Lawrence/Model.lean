import Verif.Residue.Model
import Mathlib.LinearAlgebra.Matrix.Determinant.Basic
import Mathlib.Data.Rat.Defs

/-! Model of the Lawrence integration code: code/latte/valuation/Perturbation.cpp (all functions except `printTerm`),
`computeResidueLawrence` (code/latte/integration/residue.cpp:297-434) and
`PolytopeValuation::findIntegralUsingLawrence` (code/latte/valuation/PolytopeValuation.cpp:755-825).

`ZZ` is `Int`, `RationalNTL` is `ℚ` (properties C01-C03; a zero denominator makes the model fail with `none`),
`NTL::determinant` is `Matrix.det`. `setLatticeInverse` has no caller in the code base, so `latticeInverse == NULL` and only
the full-dimensional branch (Perturbation.cpp:296-299) is modelled. The univariate tries of `computeResidueLawrence` are
coefficient lists as in `Verif.Residue.Model` (properties C21-C23). Random numbers are a list of draws consumed in order;
running out of draws is `none`. -/

namespace Latte.Lawrence

open Latte.Residue

/-- Perturbation.h:82-87 `linearPerturbation`. -/
structure LP where
  constant : Int
  epsilon : Int
  power : Int
deriving DecidableEq, Repr

/-- the parts of `listCone` (cone.h) used here: the integer vertex numerators and the rays. -/
structure Cone where
  vertex : List Int
  rays : List (List Int)
deriving DecidableEq, Repr

/-- Perturbation.h:89-93 the members of `LinearLawrenceIntegration`. -/
structure LTerm where
  cone : Cone
  rdp : List LP
  num : LP
  det : Int
  dbz : Bool
deriving Repr

/-- NTL `vec_ZZ * vec_ZZ` inner product. -/
def dot (a b : List Int) : Int := (List.zipWith (· * ·) a b).sum

/-- Perturbation.cpp:276-299 `abs(determinant(rayMatrix))`, the rays being the columns. -/
def absDet (n : Nat) (rays : List (List Int)) : Int :=
  |Matrix.det (Matrix.of fun (i j : Fin n) => (rays.getD j []).getD i 0)|

/-- Perturbation.cpp:41 `numOfRays`: the number of rays of the first cone. -/
def numOfRays : List Cone → Nat
  | [] => 0
  | c :: _ => c.rays.length

/-- Perturbation.cpp:34-50 `setListCones` with Perturbation.cpp:231-237 `setSimplicialCone`. -/
def setListCones (cones : List Cone) : List LTerm :=
  cones.map fun c => ⟨c, List.replicate (numOfRays cones) ⟨0, 0, 0⟩, ⟨0, 0, 0⟩, 0, false⟩

/-- Perturbation.cpp:255-330 `computeDotProducts(l, ...)`, full-dimensional case. The flag returned is the new `divideByZero`. -/
def dotL (l : List Int) (t : LTerm) : LTerm :=
  let c := dot t.cone.vertex l
  if c = 0 then { t with num := ⟨0, 0, 0⟩, dbz := false }
  else
    { t with
      num := { t.num with constant := c }
      rdp := (t.cone.rays.map fun r => ⟨dot l r, 0, 0⟩) ++ t.rdp.drop t.cone.rays.length
      det := absDet l.length t.cone.rays
      dbz := t.cone.rays.any fun r => dot l r = 0 }

/-- Perturbation.cpp:358-363 the loop over the rays; `true` = still dividing by zero (early return). -/
def epsLoop (e : List Int) : List (List Int) → List LP → List LP × Bool
  | r :: rs, p :: ps =>
    let p' := { p with epsilon := dot e r }
    if p.constant = 0 ∧ p'.epsilon = 0 then (p' :: ps, true)
    else
      let q := epsLoop e rs ps
      (p' :: q.1, q.2)
  | _, ps => (ps, false)

/-- Perturbation.cpp:350-378 `computeDotProducts(e, l)`. -/
def dotE (e : List Int) (t : LTerm) : LTerm × Bool :=
  if t.dbz = false then (t, false)
  else
    let q := epsLoop e t.cone.rays t.rdp
    if q.2 then ({ t with rdp := q.1 }, true)
    else ({ t with rdp := q.1, num := { t.num with epsilon := dot e t.cone.vertex } }, false)

/-- Perturbation.cpp:58-66 `tryCurrentPerturbation`. -/
def tryCurrent (e : List Int) : List LTerm → List LTerm × Bool
  | [] => ([], false)
  | t :: ts =>
    let q := dotE e t
    if q.2 then (q.1 :: ts, true)
    else
      let q' := tryCurrent e ts
      (q.1 :: q'.1, q'.2)

/-- Perturbation.cpp:78-85 `tryNoPerturbation`. -/
def tryNo (l : List Int) (ts : List LTerm) : List LTerm × Bool :=
  let ts' := ts.map (dotL l)
  (ts', ts'.any fun t => t.dbz)

/-- Perturbation.cpp:129-133 the loop filling `currentPerturbation`, `cnt` entries left. -/
def momentLoop (t : Int) : Nat → Int → List Int
  | 0, _ => []
  | cnt + 1, p => (p * (if t % 2 ≠ 0 then -1 else 1)) :: momentLoop t cnt (p * t)

/-- Perturbation.cpp:137-144 division by the gcd; both loops start at index 1. -/
def scaleDown : List Int → List Int
  | [] => []
  | x :: xs =>
    let g : Int := xs.foldl (fun (g : Int) (y : Int) => (Int.gcd g y : Int)) x
    if g > 1 then x :: xs.map fun y => y.fdiv g else x :: xs

/-- Perturbation.cpp:127-144, 163-182 the perturbation chosen from the random number `r`. -/
def pert (n : Nat) (r : Nat) : List Int := scaleDown (momentLoop ((r % 100 : Nat) : Int) n 1)

/-- Perturbation.cpp:151-183 the `while` loop, started with a fresh draw; returns the remaining draws. -/
def pertLoop (n : Nat) : List Nat → List LTerm → Option (List LTerm × List Nat)
  | [], _ => none
  | r :: rs, ts =>
    let q := tryCurrent (pert n r) ts
    if q.2 then pertLoop n rs q.1 else some (q.1, rs)

/-- Perturbation.cpp:99-191 `findPerturbation`; `n` is the ambient dimension. -/
def findPerturbation (n : Nat) (l : List Int) (draws : List Nat) (ts : List LTerm) : Option (List LTerm × List Nat) :=
  let q := tryNo l ts
  if q.2 = false then some (q.1, draws) else pertLoop n draws q.1

/-- Perturbation.cpp:507-516 the loop over `j`: marks the equal unprocessed factors and counts them. -/
def markLoop (c e : Int) : List LP → Int → List LP × Int
  | [], k => ([], k)
  | p :: ps, k =>
    if p.constant = c ∧ p.epsilon = e ∧ p.power = 0 then
      let q := markLoop c e ps (k + 1)
      ({ p with power := -1 } :: q.1, q.2)
    else
      let q := markLoop c e ps k
      (p :: q.1, q.2)

theorem markLoop_length (c e : Int) (ps : List LP) : ∀ k, (markLoop c e ps k).1.length = ps.length := by
  induction ps with
  | nil => intro k; rfl
  | cons p ps ih => intro k; unfold markLoop; split_ifs <;> simp [ih]

/-- Perturbation.cpp:480-518 the loop over `i`: the array is `done ++ rest` and `i` is `done.length`; `loc` is `locationOfe`. -/
def updLoop (done : List LP) (loc : Option Nat) (rest : List LP) : List LP × Option Nat :=
  match rest with
  | [] => (done, loc)
  | p :: ps =>
    if p.power < 0 then updLoop (done ++ [p]) loc ps
    else if p.constant = 0 then
      match loc with
      | none => updLoop (done ++ [{ p with power := 1 }]) (some done.length) ps
      | some k =>
        updLoop (done.modify k (fun q => { q with epsilon := q.epsilon * p.epsilon, power := q.power + 1 }) ++
          [{ p with power := -1 }]) loc ps
    else
      updLoop (done ++ [{ p with power := (markLoop p.constant p.epsilon ps 1).2 }]) loc (markLoop p.constant p.epsilon ps 1).1
termination_by rest.length
decreasing_by all_goals simp [markLoop_length]

/-- Perturbation.cpp:525-530 the swap. -/
def swap0 (k : Nat) (xs : List LP) : List LP :=
  match xs[0]?, xs[k]? with
  | some a, some b => (xs.set 0 b).set k a
  | _, _ => xs

/-- Perturbation.cpp:468-534 `updatePowers`; a failing assertion is `none`. -/
def updatePowers (xs : List LP) : Option (List LP) :=
  match updLoop [] none xs with
  | (_, none) => none
  | (ys, some k) => some (if k > 0 then swap0 k ys else ys)

/-- residue.cpp:336-345 truncated `(a + b ε)^(M+d)`. -/
def numSeriesL (Md : Nat) (a b : Int) (p : Nat) : Option (List Int) :=
  (List.range (p + 1)).mapM fun (i : Nat) =>
    (powerZZ a ((Md : Int) - i)).bind fun u => (powerZZ b (i : Int)).map fun w => aChooseB Md i * u * w

/-- residue.cpp:369-385 the series of `a^(s+p) / (a + b ε)^s`. -/
def facSeriesL (a b : Int) (s : Int) (p : Nat) : Option (List Int) :=
  (List.range (p + 1)).mapM fun (j : Nat) =>
    (powerZZ a ((p : Int) - j)).bind fun u => (powerZZ b (j : Int)).map fun w =>
      if j % 2 = 1 then aChooseB (s + j - 1) j * u * w * (-1) else aChooseB (s + j - 1) j * u * w

/-- residue.cpp:348-407 the loop over the factors: the running product and `de`. -/
def facLoop (p : Nat) : List LP → List Int → Int → Option (List Int × Int)
  | [], pr, de => some (pr, de)
  | q :: qs, pr, de =>
    if q.power ≤ 0 then facLoop p qs pr de
    else if q.epsilon = 0 then (powerZZ q.constant q.power).bind fun w => facLoop p qs pr (de * w)
    else
      (powerZZ q.constant (q.power + p)).bind fun w =>
      (facSeriesL q.constant q.epsilon q.power p).bind fun m2 => facLoop p qs (mulTrunc p pr m2) (de * w)

/-- residue.cpp:297-434 `computeResidueLawrence`: numerator and denominator. -/
def computeResidueLawrence (d M : Nat) (num : LP) (rdp : List LP) : Option (Int × Int) :=
  match rdp with
  | [] => none
  | p0 :: rest =>
    let p := p0.power.toNat
    (numSeriesL (M + d) num.constant num.epsilon p).bind fun pr =>
    (facLoop p (rest.take (d - 1)) pr p0.epsilon).map fun q => (q.1.getD p 0, q.2)

/-- `RationalNTL(numerator, denominator).mult(determinant)`; `none` for a zero denominator. -/
def ratMul (nu de det : Int) : Option ℚ := if de = 0 then none else some ((nu : ℚ) / de * det)

/-- Perturbation.cpp:390-440 `integrateTerm`: new state of the term and new total. -/
def integrateTerm (m d : Nat) (t : LTerm) (total : ℚ) : Option (LTerm × ℚ) :=
  if t.num.constant = 0 then some (t, total)
  else if t.dbz = false then
    (ratMul (t.num.constant ^ (m + d)) (t.rdp.foldl (fun (de : Int) (q : LP) => de * q.constant) 1) t.det).map fun x =>
      (t, total + x)
  else
    (updatePowers t.rdp).bind fun rdp' =>
    (computeResidueLawrence d m t.num rdp').bind fun q =>
    (ratMul q.1 q.2 t.det).map fun x => ({ t with rdp := rdp' }, total + x)

/-- Perturbation.cpp:202-204 the loop over the cones. -/
def integrateLoop (m d : Nat) : List LTerm → ℚ → Option (List LTerm × ℚ)
  | [], total => some ([], total)
  | t :: ts, total =>
    (integrateTerm m d t total).bind fun q =>
    (integrateLoop m d ts q.2).map fun q' => (q.1 :: q'.1, q'.2)

/-- Perturbation.cpp:198-209 `integratePolytope`. -/
def integratePolytope (m d : Nat) (ts : List LTerm) : Option (List LTerm × ℚ) :=
  (integrateLoop m d ts 0).map fun q => (q.1, if d % 2 ≠ 0 then -q.2 else q.2)

/-- a stored power of a linear form: coefficient (already multiplied by `m!`), power `m`, the form. -/
structure Form where
  coe : ℚ
  m : Nat
  l : List Int

/-- PolytopeValuation.cpp:788-820 the loop over the linear forms, all on the same container. -/
def formsLoop (n d nr : Nat) : List Form → List Nat → List LTerm → ℚ → Option ℚ
  | [], _, _, ans => some ans
  | f :: fs, draws, ts, ans =>
    (findPerturbation n f.l draws ts).bind fun q =>
    (integratePolytope f.m nr q.1).bind fun r =>
    let de := (List.range (d + f.m)).foldl (fun (de : Int) (i : Nat) => de * ((i : Int) + 1)) 1
    formsLoop n d nr fs q.2 r.1 (ans + r.2 * f.coe / (de : ℚ))

/-- PolytopeValuation.cpp:755-825 `findIntegralUsingLawrence` of a polytope of dimension `d` in `n` variables. -/
def findIntegralUsingLawrence (n d : Nat) (cones : List Cone) (fs : List Form) (draws : List Nat) : Option ℚ :=
  if fs = [] then some 0 else formsLoop n d (numOfRays cones) fs draws (setListCones cones) 0

end Latte.Lawrence
