import Verif.Digging.Heap
import Verif.Perturb.Model
import Verif.PolySubst.Offline

/-!
# Model of `SolveIP` and of the class `ConeInfo`

`code/latte/IntegralHull.cpp` 129–564 and `code/latte/ConeInfo.cpp` 468–1020, 1348–1409, as called by `maximize` and `minimize`
(`code/latte/maximize.cpp` 440–530).  `ZZ` and `int` are integers, the arrays of `int` exponents are lists of natural numbers (no overflow).  The hash table is
shared by all objects; every call of `Calculate_Next_Highest_Term` uses a new time stamp and looks only at entries with this stamp (simplification: the
32-bit stamp does not wrap around), so a table that is empty at the beginning of the call is modelled.
-/

namespace Verif.Digging

open Verif.Barvinok (Vec)
open Verif.ExpSubst (inner)
open Verif.PolySubst (OffCone)

/-- Ways to end without a result: `exit(1)`, a null pointer is followed or an array is accessed out of bounds, the probing of the hash table never
ends, or the fuel of the model ran out. -/
inductive Stop where
  | exit1
  | undefined
  | hang
  | fuel
  deriving DecidableEq, Repr

/-- The hash table: `HASH_TABLE_SIZE` and `Hash_Integer_Vector` (ConeInfo.cpp 1394–1408; the coefficients come from `rand()`, so this is an arbitrary
function with values below the size). -/
structure Hashing where
  size : ℕ
  pos : 0 < size
  hash : List ℕ → ℕ
  lt : ∀ v, hash v < size

/-- The entries of the hash table with the current time stamp. -/
abbrev Table := ℕ → Option (List ℕ)

/-- The linear probing, ConeInfo.cpp 883–912: `some true` if the vector is found, `some false` with the new table if it has been entered; `none` if all
`size` entries have been inspected in vain (the loop then goes on forever). -/
def probe (H : Hashing) (v : List ℕ) : (left : ℕ) → (slot : ℕ) → Table → Option (Bool × Table)
  | 0, _, _ => none
  | left + 1, slot, T =>
    match T slot with
    | some w => if v = w then some (true, T) else probe H v left ((slot + 1) % H.size) T
    | none => some (false, Function.update T slot (some v))

/-- The heap of a cone: exponent vectors with their `Total_Sum`. -/
abbrev VHeap := Heap (List ℕ × ℤ)

/-- The key of this heap. -/
def vkey (p : List ℕ × ℤ) : ℤ := p.2

/-- An object of class `ConeInfo`. -/
structure Info (n : ℕ) where
  coefficient : ℤ
  numer : ℤ
  point : Vec n
  rays : List (Vec n)
  signs : List ℤ
  svals : List ℤ
  order : List ℕ
  zeroFlag : Bool
  heap : VHeap
  vectors : List (List ℕ)
  expansion : ℤ
  current : ℤ

variable {n : ℕ}

/-- The inner loop of the bubble sort, ConeInfo.cpp 676–690; `a` is the entry at the current position. -/
def bubbleFrom (a : ℤ × ℕ) : List (ℤ × ℕ) → List (ℤ × ℕ)
  | [] => [a]
  | b :: rest => if b.1 > a.1 then b :: bubbleFrom a rest else a :: bubbleFrom b rest

/-- One pass of the bubble sort. -/
def bubble : List (ℤ × ℕ) → List (ℤ × ℕ)
  | [] => []
  | a :: rest => bubbleFrom a rest

/-- `Sort_S_Values`, ConeInfo.cpp 665–692: pass `i` leaves out the last `i` entries; `k` passes. -/
def sortS : (k : ℕ) → List (ℤ × ℕ) → List (ℤ × ℕ)
  | 0, l => l
  | k + 1, l => sortS k (bubble l).dropLast ++ (bubble l).getLast?.toList

/-- `ConeInfo::ConeInfo`, ConeInfo.cpp 468–617.  `none`: the list of lattice points is empty, or there are no rays. -/
def mkInfo (cost : Vec n) (C : OffCone n) : Option (Info n) :=
  match C.points, C.rays with
  | pt :: _, _ :: _ =>
    let dots := C.rays.map fun r => inner cost r
    let sorted := sortS (C.rays.length - 1) ((dots.map fun s => if s > 0 then -1 * s else s).zip (List.range C.rays.length))
    let zeros := List.replicate C.rays.length 0
    match sorted.map (·.1) with
    | [] => none
    | s0 :: _ =>
      match (Heap.empty : VHeap).add vkey (zeros.set 0 1, s0) with
      | none => none
      | some heap =>
        let numer := dots.foldl (fun x s => if s > 0 then x - s else x) (inner pt cost)
        some {
          coefficient := dots.foldl (fun x s => if s > 0 then x * -1 else x) C.coefficient
          numer := numer
          point := pt
          rays := C.rays
          signs := dots.map fun s => if s > 0 then 1 else -1
          svals := sorted.map (·.1)
          order := sorted.map (·.2)
          zeroFlag := dots.any (· == 0)
          heap := heap
          vectors := [zeros]
          expansion := 0
          current := numer }
  | _, _ => none

/-- The second successor of an exponent vector, ConeInfo.cpp 811–833, 950–972: one unit moves from the first non-zero entry to the next one;
`some none`: the first non-zero entry is the last one; `none`: all entries are zero (index -1). -/
def moveFirst : List ℕ → List ℤ → Option (Option (List ℕ × ℤ))
  | [], _ => none
  | _ :: _, [] => none
  | x :: e, s :: ss =>
    if x ≠ 0 then
      match e, ss with
      | [], _ => some none
      | y :: e', s' :: _ => some (some ((x - 1) :: (y + 1) :: e', s' - s))
      | _ :: _, [] => none
    else
      match moveFirst e ss with
      | some (some (e', d)) => some (some (0 :: e', d))
      | r => r

/-- Both successors go into the heap, ConeInfo.cpp 794–835, 932–972; `t` is `*Expansion_Highest_Term`. -/
def addSuccessors (svals : List ℤ) (e : List ℕ) (t : ℤ) (h : VHeap) : Option VHeap :=
  match e, svals with
  | x :: e', s0 :: _ =>
    match h.add vkey ((x + 1) :: e', t + s0) with
    | none => none
    | some h1 =>
      match moveFirst e svals with
      | none => none
      | some none => some h1
      | some (some (e2, d)) => h1.add vkey (e2, t + d)
  | _, _ => none

/-- The loop `while (Heap->Check_Top_Heap(Expansion_Highest_Term) == 1)`, ConeInfo.cpp 849–980. -/
def nextLoop (H : Hashing) (svals : List ℤ) (t : ℤ) : (fuel : ℕ) → VHeap → Table → ℤ → List (List ℕ) → Except Stop (VHeap × ℤ × List (List ℕ))
  | 0, _, _, _, _ => .error .fuel
  | fuel + 1, h, T, coeff, vs =>
    if h.topIs vkey t then
      match h.pop vkey with
      | none => .error .undefined
      | some ((e, _), h1) =>
        match probe H e H.size (H.hash e) T with
        | none => .error .hang
        | some (true, T1) => nextLoop H svals t fuel h1 T1 coeff vs
        | some (false, T1) =>
          match addSuccessors svals e t h1 with
          | none => .error .undefined
          | some h2 => nextLoop H svals t fuel h2 T1 (if coeff > 0 then coeff + 1 else coeff - 1) (e :: vs)
    else .ok (h, coeff, vs)

/-- `Calculate_Next_Highest_Term`, ConeInfo.cpp 695–1020. -/
def nextTerm (H : Hashing) (fuel : ℕ) (c : Info n) : Except Stop (Info n) :=
  if c.zeroFlag then .error .exit1
  else
    match c.heap.pop vkey with
    | none => .error .undefined
    | some ((e, t), h1) =>
      match addSuccessors c.svals e t h1 with
      | none => .error .undefined
      | some h2 =>
        match nextLoop H c.svals t fuel h2 (Function.update (fun _ => none) (H.hash e) (some e)) (if c.coefficient < 0 then -1 else 1) [e] with
        | .error s => .error s
        | .ok (h3, coeff, vs) =>
          .ok { c with coefficient := coeff, heap := h3, vectors := vs, expansion := t, current := c.numer + t }

/-- `Calculate_Integral_Point` for one vector of the list, ConeInfo.cpp 1348–1392. -/
def integralPoint (c : Info n) (e : List ℕ) : Vec n :=
  let base := (c.signs.zip c.rays).foldl (fun p sr => if sr.1 > 0 then p - sr.2 else p) c.point
  let coeffs := (c.order.zip e).foldl (fun (tc : List ℕ) oe => tc.set oe.1 oe.2) (List.replicate c.rays.length 0)
  (c.signs.zip (c.rays.zip coeffs)).foldl (fun p q => fun j => p j - q.1 * q.2.1 j * (q.2.2 : ℤ)) base

/-- The key of the heap of cones. -/
def ikey (c : Info n) : ℤ := c.current

/-- Building the heap of cones, IntegralHull.cpp 164–209, until a scalar product is zero (`some none`). -/
def buildHeap (cost : Vec n) : List (OffCone n) → Heap (Info n) → Except Stop (Option (Heap (Info n)))
  | [], h => .ok (some h)
  | C :: Cs, h =>
    match mkInfo cost C with
    | none => .error .undefined
    | some c =>
      match h.add ikey c with
      | none => .error .undefined
      | some h1 => if c.zeroFlag then .ok none else buildHeap cost Cs h1

/-- `Calculate_Pertubation` with `Mod_Value = 10` (IntegralHull.cpp 195), on vectors. -/
def perturb (cones : List (OffCone n)) (cost : Vec n) (draws : List (ℕ × ℕ)) : Vec n := fun k =>
  (Perturb.calculatePertubation (cones.map fun C => C.rays.map fun r => List.ofFn r) (List.ofFn cost) 10 n draws).getD k 0

/-- The loop of IntegralHull.cpp 164–209: perturb and start again as long as there is a zero.  The number of perturbations is returned too. -/
def prepare (cones : List (OffCone n)) (cost : Vec n) (single : Bool) : (tries : ℕ) → (draws : ℕ → List (ℕ × ℕ)) → (current : Vec n) → (count : ℕ) →
    Except Stop (Heap (Info n) × ℕ)
  | 0, _, _, _ => .error .fuel
  | tries + 1, draws, current, count =>
    match buildHeap current cones .empty with
    | .error s => .error s
    | .ok (some h) => .ok (h, count)
    | .ok none =>
      if single then .error .exit1
      else prepare cones cost single tries (fun i => draws (i + 1)) (perturb cones cost (draws 0)) (count + 1)

/-- IntegralHull.cpp 240–252: pop all further cones with the same highest term. -/
def popEqual (k : ℤ) : (fuel : ℕ) → Heap (Info n) → Option (List (Info n) × Heap (Info n))
  | 0, h => some ([], h)
  | fuel + 1, h =>
    if h.topIs ikey k then
      match h.pop ikey with
      | none => none
      | some (c, h1) =>
        match popEqual k fuel h1 with
        | none => none
        | some (cs, h2) => some (c :: cs, h2)
    else some ([], h)

/-- IntegralHull.cpp 268–283, 346–360: the next terms of all popped cones, which go back into the heap. -/
def digAll (H : Hashing) (fuel : ℕ) : List (Info n) → Heap (Info n) → Except Stop (Heap (Info n))
  | [], h => .ok h
  | c :: cs, h =>
    match nextTerm H fuel c with
    | .error s => .error s
    | .ok c' =>
      match h.add ikey c' with
      | none => .error .undefined
      | some h1 => digAll H fuel cs h1

/-- Feasibility, IntegralHull.cpp 312–327: `b + a x >= 0` for all rows `(b, a)`. -/
def feasible (matrix : List (ℤ × Vec n)) (x : Vec n) : Bool := matrix.all fun row => decide (0 ≤ row.1 + inner row.2 x)

/-- What `SolveIP` reports: the returned vector, `Coefficient_Sum` (printed as the number of optimal solutions if there was no perturbation). -/
structure Answer (n : ℕ) where
  point : Vec n
  number : ℤ

/-- The main loop, IntegralHull.cpp 219–370. -/
def mainLoop (H : Hashing) (matrix : List (ℤ × Vec n)) (single : Bool) (innerFuel : ℕ) : (fuel : ℕ) → Heap (Info n) → Except Stop (Answer n)
  | 0, _ => .error .fuel
  | fuel + 1, h =>
    match h.pop ikey with
    | none => .error .undefined
    | some (c, h1) =>
      match popEqual c.current h1.count h1 with
      | none => .error .undefined
      | some (cs, h2) =>
        let top := c :: cs
        let sum := cs.foldl (fun s c => s + c.coefficient) c.coefficient
        if sum = 0 then
          match digAll H innerFuel top h2 with
          | .error s => .error s
          | .ok h3 => mainLoop H matrix single innerFuel fuel h3
        else
          let candidates := (top.flatMap fun c => c.vectors.map (integralPoint c)).reverse
          match candidates.find? (feasible matrix) with
          | some x => .ok ⟨x, sum⟩
          | none =>
            if candidates = [] then .ok ⟨0, sum⟩
            else if single then
              match digAll H innerFuel top h2 with
              | .error s => .error s
              | .ok h3 => mainLoop H matrix single innerFuel fuel h3
            else .error .exit1

/-- `SolveIP`, IntegralHull.cpp 129–564 (without the verification that only prints a message).  The second component is `Pertubation_Count`. -/
def solveIP (H : Hashing) (cones : List (OffCone n)) (matrix : List (ℤ × Vec n)) (cost : Vec n) (single : Bool) (tries : ℕ)
    (draws : ℕ → List (ℕ × ℕ)) (innerFuel fuel : ℕ) : Except Stop (Answer n × ℕ) :=
  match prepare cones cost single tries draws cost 0 with
  | .error s => .error s
  | .ok (h, count) =>
    match mainLoop H matrix single innerFuel fuel h with
    | .error s => .error s
    | .ok a => .ok (a, count)

end Verif.Digging
