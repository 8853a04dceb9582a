import Mathlib.LinearAlgebra.Matrix.NonsingularInverse
import Mathlib.Data.List.FinRange
import Mathlib.Algebra.BigOperators.Fin
import Mathlib.Logic.Equiv.Basic

/-!
# Model of `code/latte/preprocess.cpp` and of `ProjectUp2` (`code/latte/ProjectUp.cpp`)

`ihermite` brings the transposed matrix of the equations into echelon form by unimodular row operations; `preprocessProblem` uses it to eliminate
the equations of a polyhedron.  Matrices stored row by row in a `vec_ZZ` are functions of two indices; the 1-based indices of the code are 0-based here.
-/

namespace Verif.Preprocess

open Matrix

variable {n m : ℕ}

/-- The local state of `ihermite` (preprocess.cpp 77–182): `S` has `n` rows and `m` columns, `U` is square of size `n`; `c` is the current column (the
code's `c` minus one), `crk` the rank found so far. -/
structure HState (n m : ℕ) where
  S : Matrix (Fin n) (Fin m) ℤ
  U : Matrix (Fin n) (Fin n) ℤ
  rhs : Fin m → ℤ
  c : ℕ
  crk : ℕ

/-- The search for the pivot row (preprocess.cpp 104–117): the first row of least non-zero absolute value in column `c` from row `c` on.  As in the
code, the candidate moves on as long as only zeros were seen. State: (mv, mc). -/
def pivotRow (S : Matrix (Fin n) (Fin m) ℤ) (c : Fin n) (cj : Fin m) : Fin n :=
  (((List.finRange n).filter fun i => c < i).foldl
    (fun (s : ℤ × Fin n) i => if s.1 = 0 ∨ (s.1 > |S i cj| ∧ |S i cj| ≠ 0) then (|S i cj|, i) else s) (|S c cj|, c)).2

/-- The exchange of rows `c` and `mc` with the sign of the pivot (preprocess.cpp 119–136); in `S` only the columns from `c` on are touched. -/
def pivot (s : HState n m) (c : Fin n) (cj : Fin m) : HState n m :=
  let mc := pivotRow s.S c cj
  if mc ≠ c ∨ s.S mc cj < 0 then
    let sign : ℤ := if s.S mc cj < 0 then -1 else 1
    { s with
      S := fun i j => if j < cj then s.S i j else if i = c then sign * s.S mc j else if i = mc then s.S c j else s.S i j
      U := fun i j => if i = c then sign * s.U mc j else if i = mc then s.U c j else s.U i j }
  else s

/-- The first column from `c` on with a non-zero entry in the rows from `c` on (preprocess.cpp 141–145). -/
def findColumn (S : Matrix (Fin n) (Fin m) ℤ) (c : Fin n) (cj : Fin m) : Option (Fin m) :=
  (List.finRange m).find? fun i => cj ≤ i ∧ ∃ j : Fin n, c ≤ j ∧ S j i ≠ 0

/-- The exchange of columns `i` and `c` and of the two right-hand sides (preprocess.cpp 146–154). -/
def swapColumns (s : HState n m) (cj i : Fin m) : HState n m :=
  { s with
    S := fun k j => s.S k (Equiv.swap i cj j)
    rhs := fun j => s.rhs (Equiv.swap i cj j) }

/-- The reduction step (preprocess.cpp 161–175): every row below `c` minus the integer quotient times row `c`.  `/` of NTL rounds down. -/
def reduceRows (s : HState n m) (c : Fin n) (cj : Fin m) : HState n m :=
  { s with
    S := fun i j => if c < i ∧ cj ≤ j then s.S i j - Int.fdiv (s.S i cj) (s.S c cj) * s.S c j else s.S i j
    U := fun i j => if c < i then s.U i j - Int.fdiv (s.S i cj) (s.S c cj) * s.U c j else s.U i j
    crk := c.val + 1 }

/-- The while loop of `ihermite` (preprocess.cpp 103–179); `none`: the fuel of the model ran out. -/
def hermiteLoop : ℕ → HState n m → Option (HState n m)
  | 0, _ => none
  | fuel + 1, s =>
    if h : s.c < n ∧ s.c < m then
      let c : Fin n := ⟨s.c, h.1⟩
      let cj : Fin m := ⟨s.c, h.2⟩
      let s1 := pivot s c cj
      if s1.S c cj = 0 then
        match findColumn s1.S c cj with
        | none => some s1
        | some i => hermiteLoop fuel (swapColumns s1 cj i)
      else
        let s2 := reduceRows s1 c cj
        if ∀ i, c < i → s2.S i cj = 0 then hermiteLoop fuel { s2 with c := s.c + 1 } else hermiteLoop fuel s2
    else some s

/-- `ihermite` (preprocess.cpp 77–182); `U` starts as the identity (93–101). -/
def ihermite (fuel : ℕ) (S : Matrix (Fin n) (Fin m) ℤ) (rhs : Fin m → ℤ) : Option (HState n m) :=
  hermiteLoop fuel ⟨S, 1, rhs, 0, 0⟩

/-! ## The elimination -/

/-- A row `(b | a)`: the inequality `b + a · x ≥ 0` or the equation `b + a · x = 0`. -/
structure Row (n : ℕ) where
  b : ℤ
  a : Fin n → ℤ

/-- What `preprocessProblem` can do: end the program after writing a number of lattice points; end it with the message that the polytope is not bounded;
stop in NTL or read outside of an array (`crash`); return the new inequalities in `d` variables, together with `ProjU` (particular solution and basis)
and the new cost vector. -/
inductive Outcome (n : ℕ)
  | count (k : ℕ)
  | notBounded
  | crash
  | fuel
  | reduced (d : ℕ) (ineqs : List (Row d)) (p : Fin n → ℤ) (basis : Fin d → Fin n → ℤ) (cost : Fin d → ℤ)

/-- The loop that solves the triangular system with integer division (preprocess.cpp 403–427), over the remaining rows. `H` is the matrix of
`numOfRows` rows and `numOfVars` columns. -/
def forward (hmn : m ≤ n) (H : Matrix (Fin m) (Fin n) ℤ) : List (Fin m) → (Fin n → ℤ) → (Fin m → ℤ) → Fin n → ℤ
  | [], sol, _ => sol
  | i :: l, sol, rhs =>
    if H i (Fin.castLE hmn i) ≠ 0 then
      let q := Int.fdiv (rhs i) (H i (Fin.castLE hmn i))
      forward hmn H l (Function.update sol (Fin.castLE hmn i) q) fun j => if i < j then rhs j - q * H j (Fin.castLE hmn i) else rhs j
    else forward hmn H l sol rhs

/-- One new inequality (preprocess.cpp 571–585, 592–594): dilated constant, coefficients of the basis vectors. (The code appends a zero coefficient.) -/
def newRow {d : ℕ} (p : Fin n → ℤ) (basis : Fin d → Fin n → ℤ) (dil : ℤ) (r : Row n) : Row d :=
  ⟨dil * (r.b + ∑ k, r.a k * p k), fun j => ∑ k, r.a k * basis j k⟩

/-- The loop over the inequalities (preprocess.cpp 570–606): trivial ones are dropped, `none` when a trivial one is violated. -/
def newRows {d : ℕ} (p : Fin n → ℤ) (basis : Fin d → Fin n → ℤ) (dil : ℤ) : List (Row n) → Option (List (Row d))
  | [] => some []
  | r :: rs =>
    let b := newRow p basis dil r
    if ∑ j, |b.a j| = 0 ∧ b.b < 0 then none
    else
      match newRows p basis dil rs with
      | none => none
      | some out => if ∑ j, |b.a j| ≠ 0 then some (b :: out) else some out

/-- `checkListVector` (preprocess.cpp 185–211) when it is reached: the empty list ends the program with zero lattice points; rows without
coefficients do not occur. -/
def checkRows {d : ℕ} (ineqs : List (Row d)) (p : Fin n → ℤ) (basis : Fin d → Fin n → ℤ) (cost : Fin d → ℤ) : Outcome n :=
  match ineqs with
  | [] => .count 0
  | _ => .reduced d ineqs p basis cost

/-- The basis of the lattice of the homogeneous equations (preprocess.cpp 314–332): the rows of `U` from the rank on. -/
def latticeBasis (s : HState n m) (hr : s.crk ≤ n) : Fin (n - s.crk) → Fin n → ℤ :=
  fun i => s.U ⟨s.crk + i.val, by omega⟩

/-- The part of `preprocessProblem` after `ihermite` (preprocess.cpp 353–628) for at most as many equations as variables. -/
def eliminate (hmn : m ≤ n) (ineqs : List (Row n)) (cost : Fin n → ℤ) (dil : ℤ) (s : HState n m) : Outcome n :=
  if hr : s.crk ≤ n then
    let H : Matrix (Fin m) (Fin n) ℤ := s.S.transpose
    let HHH : Matrix (Fin m) (Fin m) ℤ := fun i j => H i (Fin.castLE hmn j)
    let sol2 : Fin n → ℤ := fun i => if h : i.val < m then (HHH.adjugate *ᵥ s.rhs) ⟨i.val, h⟩ else 0
    let sol := forward hmn H (List.finRange m) 0 s.rhs
    if HHH.det ≠ 0 ∧ ¬ ∀ i, |sol2 i - sol i * HHH.det| = 0 then .count 0
    else
      let p : Fin n → ℤ := sol ᵥ* s.U
      let basis := latticeBasis s hr
      match newRows p basis dil ineqs with
      | none => .count 0
      | some out => checkRows out p basis fun j => ∑ k, cost k * basis j k
  else .crash

/-- `preprocessProblem` (preprocess.cpp 233–628).  Equations are rows `(b | a)`; `H = -a` (line 306).  With more equations than variables the
square matrix `HHH` is read beyond the end of the rows of `HH` (lines 382–386): `crash`.  `interior` has no effect (lines 586–588), the reduced generators
are not used by the callers.  The LLL reduction of `generators` (lines 466–513) does not influence the result. -/
def preprocessProblem (fuel : ℕ) (eqs : Fin m → Row n) (ineqs : List (Row n)) (cost : Fin n → ℤ) (dil : ℤ) : Outcome n :=
  match ineqs with
  | [] =>
    if h : m = n then
      let A : Matrix (Fin n) (Fin n) ℤ := fun i j => -(eqs (Fin.cast h.symm i)).a j
      if A.det = 0 then .crash
      else
        let x := A.adjugate *ᵥ fun i => (eqs (Fin.cast h.symm i)).b
        if ∑ i, x i = A.det * ∑ i, Int.fdiv (x i) A.det then .count 1 else .count 0
    else .notBounded
  | _ =>
    if hmn : m ≤ n then
      match ihermite fuel (fun i j => -(eqs j).a i) (fun j => (eqs j).b) with
      | none => .fuel
      | some s => eliminate hmn ineqs cost dil s
    else .crash

/-! ## Projecting up -/

/-- `ProjectUp2` (ProjectUp.cpp 104–190) on one unimodular cone given by its lattice point and rays, with the matrix `AA` and vector `bb` that
`projectOutVariables` (ReadPolyhedron.cpp 776–792) takes from `ProjU`. -/
def projectUp {d : ℕ} (p : Fin n → ℤ) (basis : Fin d → Fin n → ℤ) (point : Fin d → ℤ) (rays : List (Fin d → ℤ)) :
    (Fin n → ℤ) × List (Fin n → ℤ) :=
  (fun k => p k + ∑ j, basis j k * point j, rays.map fun r k => ∑ j, basis j k * r j)

/-- `ProjectingUp` (preprocess.cpp 982–1000) of a solution of the reduced problem; `ProjU` is the zero matrix when there were no equations. -/
def projectingUp {d : ℕ} (p : Fin n → ℤ) (basis : Fin d → Fin n → ℤ) (y : Fin d → ℤ) : Fin n → ℤ :=
  fun k => p k + ∑ j, y j * basis j k

end Verif.Preprocess
