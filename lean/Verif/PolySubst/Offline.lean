import Verif.PolySubst.Model
import Verif.Preprocess.Model

/-!
# Model of `Residue`, `code/latte/Residue.cpp` lines 41–577

The substitution used when all cones are kept in memory (`count --memsave=no`, `maximize`, `minimize`, Ehrhart series): it searches its own vector
`lambda` and chooses the precision from the number of cones.
-/

namespace Verif.PolySubst

open Verif.Barvinok (Vec)
open Verif.ExpSubst (Fail)

/-- A cone of the list, as far as `Residue` looks at it: sign, `latticePoints`, `rays`. -/
structure OffCone (n : ℕ) where
  coefficient : ℤ
  points : List (Vec n)
  rays : List (Vec n)

/-- The state of the search: `lambda`, `dlambda`, `n` (uninitialized at first; never read then), `haltCone`, `halt`, `dotProducts`. -/
structure Search (n : ℕ) where
  lam : Vec n
  dlam : Vec n
  low : ℕ
  haltCone : ℤ
  halt : ℕ
  dots : ℕ → ℤ

variable {n : ℕ}

/-- The inner loop of both scans, Residue.cpp:209–213 and 217–222 (also 297–303): the generators of cone `i` one by one, `value j old` being what is stored in
`dotProducts[i*noGsPerC+j]`; the loops are left at the first zero, and the index of that generator is returned. -/
def scanCone (noGs i : ℕ) (value : ℕ → ℤ → ℤ) : List ℕ → (ℕ → ℤ) → (ℕ → ℤ) × Option ℕ
  | [], dots => (dots, none)
  | j :: js, dots =>
    let v := value j (dots (i * noGs + j))
    let dots := Function.update dots (i * noGs + j) v
    if v = 0 then (dots, some j) else scanCone noGs i value js dots

/-- What the first scan adds to (Residue.cpp:210–211) and what the second scan stores into (218–220) `dotProducts[i*noGsPerC+j]`. -/
def scanValue (s : Search n) (i : ℕ) (rays : List (Vec n)) (j : ℕ) (old : ℤ) : ℤ :=
  if (i : ℤ) < s.haltCone then old + ∑ p : Fin n, if s.low ≤ p.val then s.dlam p * (rays.getD j 0) p else 0
  else ∑ p, s.lam p * (rays.getD j 0) p

/-- The two scans, Residue.cpp:207–224: cones before `haltCone` incrementally, the others from scratch; cone and generator of the first zero are
recorded.  `none`: no zero (`i == noCones`). -/
def scan (noGs : ℕ) (s : Search n) : List (List (Vec n)) → (i : ℕ) → (ℕ → ℤ) → (ℕ → ℤ) × Option (ℕ × ℕ × List (Vec n))
  | [], _, dots => (dots, none)
  | rays :: cones, i, dots =>
    match scanCone noGs i (scanValue s i rays) (List.range noGs) dots with
    | (dots, some j) => (dots, some (i, j, rays))
    | (dots, none) => scan noGs s cones (i + 1) dots

/-- The search for the entry to increase, Residue.cpp:231–235: `while (n>=1 && (lambda[n]==2 || m==0)) { n--; if (B[halt][n]!=0) m++; }`. -/
def descend {m : ℕ} (row lam : Vec (m + 1)) : (k : ℕ) → k < m + 1 → (cnt : ℕ) → Fin (m + 1)
  | 0, h, _ => ⟨0, h⟩
  | k + 1, h, cnt =>
    if lam ⟨k + 1, h⟩ = 2 ∨ cnt = 0 then descend row lam k (by omega) (if row ⟨k, by omega⟩ ≠ 0 then cnt + 1 else cnt)
    else ⟨k + 1, h⟩

/-- The next vector, Residue.cpp:230–245; `none`: given up. `last` is `k==4999`. -/
def nextLambda {m : ℕ} (last : Bool) (s : Search (m + 1)) (row : Vec (m + 1)) : Option (Search (m + 1)) :=
  let t := descend row s.lam m (by omega) (if row ⟨m, by omega⟩ = 0 then 0 else 1)
  if s.lam t = 2 ∨ last = true then none
  else some { s with
    lam := fun j => if j = t then s.lam t + 1 else if t < j then -1 else s.lam j
    dlam := fun j => if j = t then 1 else if t < j then -1 - s.lam j else s.dlam j
    low := t.val }

/-- LOOP 1, Residue.cpp:204–248; the argument is `5000 - k`. `none`: no vector found. -/
def loop1 {m : ℕ} (noGs : ℕ) (rays : List (List (Vec (m + 1)))) : ℕ → Search (m + 1) → Option (Vec (m + 1) × (ℕ → ℤ))
  | 0, _ => none
  | fuel + 1, s =>
    match scan noGs s rays 0 s.dots with
    | (dots, none) => some (s.lam, dots)
    | (dots, some (i, j, row)) =>
      match nextLambda (fuel == 0) { s with haltCone := i, halt := j, dots := dots } (row.getD j 0) with
      | none => none
      | some s => loop1 noGs rays fuel s

/-- LOOP 2, Residue.cpp:274–307: random vectors (the draws are a parameter), all scalar products from scratch. `dots` is what LOOP 1 left; every entry is
overwritten before it is used. -/
def loop2 {m : ℕ} (noGs : ℕ) (rays : List (List (Vec (m + 1)))) : (tries : ℕ) → (guesses : ℕ → Vec (m + 1)) → (ℕ → ℤ) →
    Option (Vec (m + 1) × (ℕ → ℤ))
  | 0, _, _ => none
  | t + 1, guesses, dots =>
    match scan noGs ⟨guesses 0, 0, 0, 0, 0, dots⟩ rays 0 dots with
    | (dots, none) => some (guesses 0, dots)
    | (dots, some _) => loop2 noGs rays t (fun i => guesses (i + 1)) dots

/-- LOOP 1 starting with the zero vector, then LOOP 2, Residue.cpp:181–307.  What LOOP 1 leaves in `dotProducts` when it gives up is replaced by zero; LOOP 2 does not read
it. -/
def findLambda {m : ℕ} (noGs : ℕ) (rays : List (List (Vec (m + 1)))) (tries : ℕ) (guesses : ℕ → Vec (m + 1)) :
    Option (Vec (m + 1) × (ℕ → ℤ)) :=
  match loop1 noGs rays 5000 ⟨0, 0, 0, -1, 0, 0⟩ with
  | some r => some r
  | none => loop2 noGs rays tries guesses 0

/-- The number `j` by which the translation is made divisible, Residue.cpp:367–382. -/
def translationUnit : List ℤ → ℤ → ℤ
  | [], j => j
  | x :: xs, j =>
    if x = 1 ∨ x = -1 then 1
    else if x < j ∧ x > 0 then translationUnit xs x
    else if -x < j ∧ x < 0 then translationUnit xs (-x)
    else translationUnit xs j

/-- The translation, Residue.cpp:385–388; the remainder of NTL has the sign of the divisor. -/
def translation (lam : Vec n) (numExps : List ℤ) : ℤ :=
  let total := ((List.range numExps.length).map fun i => if i % 100 = 0 then numExps.getD i 0 else 0).sum
  let t := total.fdiv (1 + (numExps.length / 100 : ℕ))
  t - t.fmod (translationUnit (List.ofFn lam) 10000)

/-- `tenPow`, Residue.cpp:413–414: `tenPow=10; for(i=noCones;i>0;i/=10) tenPow*=10;`. -/
def tenPow : (noCones : ℕ) → ℤ → ℤ
  | 0, p => p
  | i + 1, p => tenPow ((i + 1) / 10) (p * 10)
decreasing_by omega

/-- The numerator exponents with the sign flips, Residue.cpp:336–344: for cone `i` the scalar products, exponent and sign. -/
def normalized (noGs : ℕ) (lam : Vec n) (dots : ℕ → ℤ) : List (OffCone n) → ℕ → List (List ℤ × ℤ × ℤ)
  | [], _ => []
  | C :: Cs, i =>
    normalizeTerm ((List.range noGs).map fun j => dots (i * noGs + j)) (∑ k, lam k * (C.points.headD 0) k) C.coefficient
      :: normalized noGs lam dots Cs (i + 1)

/-- The big loop, Residue.cpp:447–552. -/
def bigLoop (T c : ℤ) : List (List ℤ × ℤ × ℤ) → ℤ → Option ℤ
  | [], total => some total
  | r :: rs, total =>
    match contribution T r.1 (r.2.1 - c) r.2.2 with
    | none => none
    | some t => bigLoop T c rs (total + t)

/-- `Residue`, Residue.cpp:41–577.  An empty list is dereferenced (73); the assertion demands exactly one lattice point per cone (105); cones
with another number of rays than the first one make the loops run past the end of a list (undefined; the code would meet the first
offending cone, of either kind, first).  `noGsPerC*noCones` is a product of two `int`s. The arrays of `noCones` elements on the stack are assumed to fit. -/
def residue {m : ℕ} (cones : List (OffCone (m + 1))) (tries : ℕ) (guesses : ℕ → Vec (m + 1)) : Except Fail ℤ :=
  match cones with
  | [] => .error .undefined
  | C0 :: _ =>
    let noGs := C0.rays.length
    if cones.any fun C => C.points.length != 1 then .error .abort
    else if cones.any fun C => C.rays.length != noGs then .error .undefined
    else if Piped.intMax < (noGs : ℤ) * cones.length then .error .undefined
    else
      match findLambda noGs (cones.map (·.rays)) tries guesses with
      | none => .error .fuel
      | some (lam, dots) =>
        let terms := normalized noGs lam dots cones 0
        let T := tenPow cones.length 10
        match bigLoop T (translation lam (terms.map fun r => r.2.1)) terms 0 with
        | none => .error .undefined
        | some total => .ok (roundTotal T total)

/-! ## The run of `count --memsave=no` -/

/-- `decomposeCones`, dec.cpp:62–100, with `Collecting_Single_Cone_Parameters` (dec.cpp:42–60), which puts every cone in front of the list. -/
def decomposeCones {n : ℕ} [NeZero n] (N : Barvinok.Ntl n) (v : Barvinok.Variant) (irr : Barvinok.Cone n → Fin n → ℚ) (maxDet : ℤ)
    (cones : List ((Fin n → ℚ) × List (Barvinok.Mat n))) : Except Fail (List (Barvinok.Cone n)) :=
  match ExpSubst.decompositionList ⟨N, v.mode, maxDet, fun _ _ => true⟩ v irr cones [] 0 with
  | .done true out _ => .ok out.reverse
  | .done false _ _ => .error .abort
  | .notIrrational => .error .abort
  | .abort => .error .abort

/-- `computePointsInParallelepipeds`, piped.cpp:341–361. -/
def computePoints {m : ℕ} (X : Smith.Xgcd) (fuel : ℕ) : List (Barvinok.Cone (m + 1)) → Except Fail (List (OffCone (m + 1)))
  | [] => .ok []
  | C :: Cs =>
    match C.facets with
    | none => .error .undefined
    | some F =>
      match Piped.points X (ExpSubst.pipedInput C F) fuel with
      | .abort => .error .abort
      | .undefined => .error .undefined
      | .fuel => .error .fuel
      | .ok pts =>
        match computePoints X fuel Cs with
        | .error e => .error e
        | .ok l => .ok (⟨C.coefficient, pts, List.ofFn fun i => C.rays i⟩ :: l)

/-- `ProjectUp2`, ProjectUp.cpp:104–190, over the whole list, with the assertions that there is exactly one lattice point (125–126). -/
def projectUpCones {d m : ℕ} (p : Vec (m + 1)) (basis : Fin d → Vec (m + 1)) : List (OffCone d) → Except Fail (List (OffCone (m + 1)))
  | [] => .ok []
  | C :: Cs =>
    match C.points with
    | [pt] =>
      match projectUpCones p basis Cs with
      | .error e => .error e
      | .ok l => .ok (⟨C.coefficient, [(Preprocess.projectUp p basis pt C.rays).1], (Preprocess.projectUp p basis pt C.rays).2⟩ :: l)
    | _ => .error .abort

/-- The computation of `count --memsave=no` from the vertex cones on, count.cpp:517–531 and 637–676, without equations.  The files written in between are not
modelled. -/
def countInMemory {m : ℕ} (N : Barvinok.Ntl (m + 1)) (X : Smith.Xgcd) (v : Barvinok.Variant) (irr : Barvinok.Cone (m + 1) → Fin (m + 1) → ℚ)
    (maxDet : ℤ) (fuel : ℕ) (cones : List ((Fin (m + 1) → ℚ) × List (Barvinok.Mat (m + 1)))) (tries : ℕ) (guesses : ℕ → Vec (m + 1)) :
    Except Fail ℤ := do
  let D ← decomposeCones N v irr maxDet cones
  let P ← computePoints X fuel D
  residue P tries guesses

/-- The same with equations present (count.cpp:644–651): the cones are put back into the original coordinates before the final computation. -/
def countInMemoryProjected {m k : ℕ} (p : Vec (k + 1)) (basis : Fin (m + 1) → Vec (k + 1)) (N : Barvinok.Ntl (m + 1)) (X : Smith.Xgcd)
    (v : Barvinok.Variant) (irr : Barvinok.Cone (m + 1) → Fin (m + 1) → ℚ) (maxDet : ℤ) (fuel : ℕ)
    (cones : List ((Fin (m + 1) → ℚ) × List (Barvinok.Mat (m + 1)))) (tries : ℕ) (guesses : ℕ → Vec (k + 1)) : Except Fail ℤ := do
  let D ← decomposeCones N v irr maxDet cones
  let P ← computePoints X fuel D
  let P ← projectUpCones p basis P
  residue P tries guesses

end Verif.PolySubst
