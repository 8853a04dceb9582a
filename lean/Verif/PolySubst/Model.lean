import Verif.ExpSubst.Model

/-!
# Model of the polynomial substitution, `code/latte/Residue.cpp`, and of its driver in `code/latte/barvinok/dec.cpp`

This is the default of `count`.  `ZZ` is `ℤ`; the division of NTL rounds down (`Int.fdiv`).  Arrays are functions `ℕ → ℤ` of which the entries
`0, …, noGsPerC` are used; an assignment is `Function.update`.
-/

namespace Verif.PolySubst

open Verif.Barvinok (Cone Mat Vec Ntl Variant Outcome Params)
open Verif.ExpSubst (Fail pipedInput inner decompositionList)

/-- An array of integers. -/
abbrev Arr := ℕ → ℤ

/-- The expansion of a factor of the denominator, Residue.cpp:843–847 and 850–854 (also 467–471, 474–478):
`T[0] = nn; T[k] = T[k-1]*(nn-k)/(k+1)`. -/
def factorCoeff (nn : ℤ) : Arr
  | 0 => nn
  | k + 1 => (factorCoeff nn k * (nn - (k + 1))).fdiv (k + 2)

/-- The expansion of the numerator, Residue.cpp:883–887 and 895–898 (also 507–511, 519–522): `T[0] = 1; T[j] = T[j-1]*(nn+1-j)/j`. -/
def numCoeff (nn : ℤ) : Arr
  | 0 => 1
  | j + 1 => (numCoeff nn j * (nn + 1 - (j + 1))).fdiv (j + 1)

/-- The product of two truncated series in place, Residue.cpp:855–859, 888–892 (also 479–483, 512–516): `k` runs downwards from `noGsPerC` to `0`. -/
def mulInto (d : ℕ) (D T : Arr) : Arr :=
  (List.range (d + 1)).reverse.foldl
    (fun D k => Function.update D k ((List.range (k + 1)).map fun m => D m * T (k - m)).sum) D

/-- The state of the division loop: `temp`, `tempVec`, `D`. -/
structure DivState where
  temp : ℤ
  q : Arr
  D : Arr

/-- One round of the division loop, Residue.cpp:914–918 (also 538–542). -/
def divStep (N : Arr) (s : DivState) (j : ℕ) : DivState :=
  let temp2 := s.temp
  let temp := s.temp * s.D 0
  let D := Function.update s.D j (s.D j * temp2)
  { temp := temp
    q := Function.update s.q j ((List.range' 1 j).foldl (fun x m => x - s.q (j - m) * D m) (N j * temp))
    D := D }

/-- The division loop, Residue.cpp:911–921 (also 535–545), with the last multiplication of `temp`: returns `temp` and `tempVec[noGsPerC]`.  The entries of `tempVec` other than the first are written
before they are read. -/
def divide (d : ℕ) (N D : Arr) : ℤ × ℤ :=
  let s := (List.range' 1 d).foldl (divStep N) ⟨1, fun _ => N 0, D⟩
  (s.temp * s.D 0, s.q d)

/-- The sign flips, Residue.cpp:712–715 (also 340–343): the scalar products with the rays become positive; returns them, the exponent of the
numerator and the sign. -/
def normalizeTerm : (dots : List ℤ) → (numExp sign : ℤ) → List ℤ × ℤ × ℤ
  | [], numExp, sign => ([], numExp, sign)
  | kk :: rest, numExp, sign =>
    if kk < 0 then
      let r := normalizeTerm rest (numExp + -kk) (sign * -1)
      (-kk :: r.1, r.2)
    else
      let r := normalizeTerm rest numExp sign
      (kk :: r.1, r.2)

/-- The denominator, Residue.cpp:840–860 (also 464–484).  With no ray at all the code reads an entry that does not exist. -/
def denominator (d : ℕ) : List ℤ → Option Arr
  | [] => none
  | n0 :: rest => some (rest.foldl (fun D nn => mulInto d D (factorCoeff nn)) (factorCoeff n0))

/-- The body of the big loop, Residue.cpp:840–926 (also 464–550): what one lattice point adds to the total, given the (positive) scalar products
of the rays, the exponent of the numerator and the sign. -/
def contribution (tenPower : ℤ) (dots : List ℤ) (numExp sign : ℤ) : Option ℤ :=
  let d := dots.length
  match denominator d dots with
  | none => none
  | some D =>
    let r :=
      if numExp < 0 then divide d (fun j => if j = 0 then 1 else 0) (mulInto d D (numCoeff (-numExp)))
      else divide d (numCoeff numExp) D
    some ((r.2 * tenPower * sign).fdiv r.1)

/-- One term: sign flips and contribution. -/
def term (tenPower : ℤ) (dots : List ℤ) (numExp sign : ℤ) : Option ℤ :=
  let r := normalizeTerm dots numExp sign
  contribution tenPower r.1 r.2.1 r.2.2

/-- The big loop over the lattice points of a cone (with their scalar products), Residue.cpp:821–928. -/
def sumTerms (tenPower : ℤ) (dots : List ℤ) (sign : ℤ) : List ℤ → ℤ → Option ℤ
  | [], total => some total
  | e :: es, total =>
    match term tenPower dots e sign with
    | none => none
    | some t => sumTerms tenPower dots sign es (total + t)

/-- `Residue_Single_Cone`, Residue.cpp:582–953, for a list of one cone (what `ConsumeCone` passes): the scalar products are computed and
tested once for every lattice point (637–645); `noGsPerC*noCones` is a product of two `int`s (621).  `points` is the list `latticePoints`.
Returns what is added to `*Total_Lattice_Points`. -/
def residueSingleCone {n : ℕ} (tenPower : ℤ) (generic : Vec n) (coefficient : ℤ) (rays points : List (Vec n)) : Except Fail ℤ :=
  if Piped.intMax < (rays.length : ℤ) * points.length then .error .undefined
  else
    let dots := rays.map fun r => ∑ k, r k * generic k
    if points.any (fun _ => dots.any (· == 0)) then .error .notGeneric
    else
      match sumTerms tenPower dots coefficient (points.map fun p => ∑ k, generic k * p k) 0 with
      | none => .error .undefined
      | some t => .ok t

/-- `Standard_Single_Cone_Parameters::ConsumeCone` without `DUAL_APPROACH`, dec.cpp:181–198: enumerate the parallelepiped, then
`Residue_Single_Cone`. -/
def consumeCone {m : ℕ} (X : Smith.Xgcd) (tenPower : ℤ) (generic : Vec (m + 1)) (fuel : ℕ) (C : Cone (m + 1)) : Except Fail ℤ :=
  match C.facets with
  | none => .error .undefined
  | some F =>
    match Piped.points X (pipedInput C F) fuel with
    | .abort => .error .abort
    | .undefined => .error .undefined
    | .fuel => .error .fuel
    | .ok pts => residueSingleCone tenPower generic C.coefficient (List.ofFn fun i => C.rays i) pts

/-- `Total_Lattice_Points += noLatticePts` (Residue.cpp:943) over all cones consumed. -/
def totalPoints {m : ℕ} (X : Smith.Xgcd) (tenPower : ℤ) (generic : Vec (m + 1)) (fuel : ℕ) : List (Cone (m + 1)) → ℤ → Except Fail ℤ
  | [], total => .ok total
  | C :: Cs, total => do
    let r ← consumeCone X tenPower generic fuel C
    totalPoints X tenPower generic fuel Cs (total + r)

/-- The status `ConsumeCone` returns: -1 (`false`) exactly if `Residue_Single_Cone` does. -/
def acceptPoly {m : ℕ} (X : Smith.Xgcd) (tenPower : ℤ) (generic : Vec (m + 1)) (fuel : ℕ) (C : Cone (m + 1)) : Bool :=
  match consumeCone X tenPower generic fuel C with
  | .error .notGeneric => false
  | _ => true

/-- The body of the do-while loop of `barvinokDecomposition_List` (dec.cpp:137–163) with this consumer; `InitializeComputation` (dec.cpp:167–179)
sets the total to zero. As in `ExpSubst.countOnce` the sum is formed after the decomposition. -/
def polyOnce {m : ℕ} (N : Ntl (m + 1)) (X : Smith.Xgcd) (v : Variant) (irr : Cone (m + 1) → Fin (m + 1) → ℚ) (maxDet : ℤ) (fuel : ℕ)
    (tenPower : ℤ) (cones : List ((Fin (m + 1) → ℚ) × List (Mat (m + 1)))) (generic : Vec (m + 1)) : Except Fail ℤ :=
  match decompositionList ⟨N, v.mode, maxDet, fun _ C => acceptPoly X tenPower generic fuel C⟩ v irr cones [] 0 with
  | .done true out _ => totalPoints X tenPower generic fuel out 0
  | .done false _ _ => .error .notGeneric
  | .notIrrational => .error .abort
  | .abort => .error .abort

/-- The rounding at the end, dec.cpp:267–269 (also Residue.cpp:559–563): `(abs(total) + tenPower/2)/tenPower`. -/
def roundTotal (tenPower total : ℤ) : ℤ := (|total| + tenPower.fdiv 2).fdiv tenPower

/-- `Ten_Power` of `decomposeAndComputeResidue`, dec.cpp:40 and 218–220 (the comment there says 100 billion; it is 10 billion). -/
def tenPowerConst : ℤ := (List.range 10).foldl (fun p _ => p * 10) 1

/-- `decomposeAndComputeResidue`, dec.cpp:200–285, without `DUAL_APPROACH` and with the retry loop of `barvinokDecomposition_List`. -/
def decomposeAndComputeResidue {m : ℕ} (N : Ntl (m + 1)) (X : Smith.Xgcd) (v : Variant) (irr : Cone (m + 1) → Fin (m + 1) → ℚ)
    (maxDet : ℤ) (fuel : ℕ) (cones : List ((Fin (m + 1) → ℚ) × List (Mat (m + 1)))) :
    (tries : ℕ) → (guesses : ℕ → Vec (m + 1)) → Except Fail ℤ
  | 0, _ => .error .fuel
  | t + 1, guesses =>
    match polyOnce N X v irr maxDet fuel tenPowerConst cones (guesses 0) with
    | .ok total => .ok (roundTotal tenPowerConst total)
    | .error .notGeneric => decomposeAndComputeResidue N X v irr maxDet fuel cones t (fun i => guesses (i + 1))
    | .error e => .error e

end Verif.PolySubst
