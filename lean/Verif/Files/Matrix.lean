import Verif.Files.Stream
import Mathlib.Algebra.BigOperators.Group.List.Basic
import Mathlib.Data.Finset.Sort
import Mathlib.Order.Interval.Finset.Nat

/-!
Model of `code/latte/ReadLatteStyle.cpp`: reading and writing matrices in LattE format.
A cddlib matrix is modelled by its entries, its representation flag and its `linset` (1-based row numbers);
`dd_CreateMatrix` makes a zero matrix with empty `linset`.
-/

namespace Verif.Files

open Latte.Decimal Latte.Rational

/-- the parts of `dd_MatrixPtr` that are used -/
structure LMatrix where
  rowsize : ℕ
  colsize : ℕ
  /-- representation: generators (`vrep`) or inequalities -/
  generator : Bool
  rows : List (List RawQ)
  /-- 1-based numbers of the rows that are equations -/
  linset : Finset ℕ
  deriving DecidableEq

/-- outcome of the reader -/
inductive ReadRes where
  | ok (m : LMatrix)
  /-- an exception with an error message -/
  | error
  /-- a write outside of an allocated row -/
  | outOfBounds
  deriving DecidableEq

/-- ReadLatteStyle.cpp:103-107 inner loop: `n` numbers. -/
def readEntries : ℕ → List Char → Option (List RawQ × List Char)
  | 0, s => some ([], s)
  | n + 1, s => (readMpq s).bind fun (x, r) => (readEntries n r).map fun (xs, r') => (x :: xs, r')

/-- ReadLatteStyle.cpp:102-108 outer loop; `pre` is the zero column added if `homogenize`. -/
def readRows (pre : List RawQ) : ℕ → ℕ → List Char → Option (List (List RawQ) × List Char)
  | 0, _, s => some ([], s)
  | m + 1, n, s =>
    (readEntries n s).bind fun (x, r) => (readRows pre m n r).map fun (xs, r') => ((pre ++ x) :: xs, r')

/-- ReadLatteStyle.cpp:122-128, 139-145: `n` integers. -/
def readInts : ℕ → List Char → Option (List ℤ × List Char)
  | 0, s => some ([], s)
  | n + 1, s => (readInt s).bind fun (x, r) => (readInts n r).map fun (xs, r') => (x :: xs, r')

/-- ReadLatteStyle.cpp:117 `f.get(buffer, 20, ' ')`: at most 19 characters, up to but not including a blank. -/
def readKeyword (s : List Char) : List Char × List Char :=
  let w := (s.take 19).takeWhile fun c => decide (c ≠ ' ')
  (w, s.drop w.length)

/-- cddlib `set_addelem`: elements outside of `1..size` are ignored. -/
def setAddelem (size : ℕ) (s : Finset ℕ) (z : ℤ) : Finset ℕ :=
  if 1 ≤ z ∧ z ≤ size then insert z.toNat s else s

/-- ReadLatteStyle.cpp:77-82: one new row; `none`: the column `index + num_homog` does not exist. -/
def nonnegRow (colsize numHomog : ℕ) (index : ℤ) : Option (List RawQ) :=
  if 0 ≤ index + numHomog ∧ index + numHomog < colsize then
    some ((List.replicate colsize ((0, 1) : RawQ)).set (index + numHomog).toNat (1, 1))
  else none

/-- ReadLatteStyle.cpp:59-84 `add_nonnegativity`. -/
def addNonnegativity (m : LMatrix) (nonnegatives : List ℤ) (numHomog : ℕ) : Option LMatrix :=
  (nonnegatives.mapM (nonnegRow m.colsize numHomog)).map fun new =>
    { rowsize := m.rowsize + nonnegatives.length
      colsize := m.colsize
      generator := false
      rows := m.rows ++ new
      linset := m.linset.filter fun i => 1 ≤ i ∧ i ≤ m.rowsize }

/-- ReadLatteStyle.cpp:118 the keyword `linearity` -/
def kwLinearity : List Char := ['l', 'i', 'n', 'e', 'a', 'r', 'i', 't', 'y']

/-- ReadLatteStyle.cpp:129 the keyword `nonnegative` -/
def kwNonnegative : List Char := ['n', 'o', 'n', 'n', 'e', 'g', 'a', 't', 'i', 'v', 'e']

/-- ReadLatteStyle.cpp:114-162 the keyword loop (with fuel; each round uses at least one character), started after
white space has been skipped. -/
def keywords (numHomog : ℕ) : ℕ → List Char → LMatrix → ReadRes
  | 0, _, _ => .error
  | fuel + 1, s, m =>
    match s with
    | [] => .ok m
    | c :: cs =>
      let (w, r) := readKeyword (c :: cs)
      if w = kwLinearity then
        match readInt r with
        | none => .error
        | some (k, r) =>
          match readInts k.toNat r with
          | none => .error
          | some (ids, r) =>
            keywords numHomog fuel (skipSpace r) { m with linset := ids.foldl (setAddelem m.rowsize) m.linset }
      else if w = kwNonnegative then
        if m.generator then .error
        else
          match readInt r with
          | none => .error
          | some (k, r) =>
            match readInts k.toNat r with
            | none => .error
            | some (ids, r) =>
              match addNonnegativity m ids numHomog with
              | none => .outOfBounds
              | some m' => keywords numHomog fuel (skipSpace r) m'
      else .error

/-- ReadLatteStyle.cpp:86-174 `ReadLatteStyleMatrix`. -/
def readLatteStyleMatrix (s : List Char) (vrep homogenize nonnegativity : Bool) : ReadRes :=
  match readInt s with
  | none => .error
  | some (numOfVectors, r) =>
    match readInt r with
    | none => .error
    | some (numOfVars, r) =>
      if numOfVectors < 0 ∨ numOfVars < 0 then .error
      else
        let numHomog := if homogenize then 1 else 0
        match readRows (List.replicate numHomog ((0, 1) : RawQ)) numOfVectors.toNat numOfVars.toNat r with
        | none => .error
        | some (rows, r) =>
          let m : LMatrix :=
            { rowsize := numOfVectors.toNat, colsize := numOfVars.toNat + numHomog, generator := vrep,
              rows := rows, linset := ∅ }
          match keywords numHomog (r.length + 1) (skipSpace r) m with
          | .ok m =>
            if nonnegativity then
              match addNonnegativity m ((List.range numOfVars.toNat).map fun k : ℕ => (k : ℤ) + 1) numHomog with
              | none => .outOfBounds
              | some m' => .ok m'
            else .ok m
          | e => e

/-- a matrix to be written: reduced fractions -/
structure QMatrix where
  colsize : ℕ
  rows : List (List ℚ)
  linset : Finset ℕ

/-- ReadLatteStyle.cpp:184-189 one row: every entry followed by a blank, then a new line. -/
def writeRow (row : List ℚ) : List Char := row.flatMap (fun q => printQ q ++ [' ']) ++ ['\n']

/-- ReadLatteStyle.cpp:193-195 the numbers of the equations. -/
def writeLin (m : QMatrix) : List Char :=
  ((List.range m.rows.length).map fun i => i + 1).flatMap fun i : ℕ =>
    if i ∈ m.linset then printInt (i : ℤ) ++ [' '] else []

/-- ReadLatteStyle.cpp:181-198 `WriteLatteStyleMatrix`. -/
def writeLatteStyleMatrix (m : QMatrix) : List Char :=
  printInt (m.rows.length : ℤ) ++ [' '] ++ printInt (m.colsize : ℤ) ++ ['\n'] ++
    m.rows.flatMap writeRow ++
    (if 0 < m.linset.card then
      kwLinearity ++ [' '] ++ printInt (m.linset.card : ℤ) ++ [' '] ++ writeLin m ++ ['\n']
    else [])

end Verif.Files
