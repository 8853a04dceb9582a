import Mathlib.Data.Int.Basic
import Mathlib.Data.List.Basic

/-!
# Model of the test for emptiness (`CheckEmpty`)

The input file is a list of tokens, numbers and words, as `operator>>` splits it; the entries are integers, as the program reads them (`mat_ZZ`).  The external
program cdd is a parameter: from the file `Check_emp.lp` it makes the words of `Check_emp.lps`, or no file at all.
-/

namespace Verif.Empty

/-- What `operator>>` finds. -/
inductive Tok where
  | num (z : ℤ)
  | word (s : String)
  deriving DecidableEq

/-- `for (i = 0; i < k; i++) IN >> Index[i]`, CheckEmpty.cpp:69, 77, 92–94; `none` if there is no number (the state of the stream is not modelled). -/
def readNums : ℕ → List Tok → Option (List ℤ × List Tok)
  | 0, ts => some ([], ts)
  | k + 1, .num z :: ts => (readNums k ts).map fun p => (z :: p.1, p.2)
  | _ + 1, _ => none

/-- What the first pass over the file remembers: `Index` (with `equ`, `numOfEqu`), `Index2` (with `nonneg`, `numOfNonneg`), and `flag`,
CheckEmpty.cpp:50–56. -/
structure Scan where
  equ : Option (List ℤ) := none
  nonneg : Option (List ℤ) := none
  flag : ℕ := 0
  deriving DecidableEq

/-- A count and that many numbers, CheckEmpty.cpp:67–69, 75–77. -/
def readSection : List Tok → Option (List ℤ × List Tok)
  | .num k :: ts => if 0 ≤ k then readNums k.toNat ts else none
  | _ => none

/-- The first pass, `while(IN >> tmpString)`, CheckEmpty.cpp:64–79.  The first argument bounds the number of rounds; one more than the number of tokens is enough. -/
def scan : ℕ → List Tok → Scan → Option Scan
  | 0, _, _ => none
  | _ + 1, [], s => some s
  | f + 1, t :: ts, s =>
    if t = .word "linearity" then (readSection ts).bind fun p => scan f p.2 { s with equ := some p.1, flag := 1 }
    else if t = .word "NONNEGATIVE" ∨ t = .word "nonnegative" then (readSection ts).bind fun p => scan f p.2 { s with nonneg := some p.1, flag := 2 }
    else scan f ts s

/-- `in >> entries[i][j]`, CheckEmpty.cpp:92–94. -/
def readRows : ℕ → ℕ → List Tok → Option (List (List ℤ) × List Tok)
  | 0, _, ts => some ([], ts)
  | r + 1, d, ts => (readNums d ts).bind fun p => (readRows r d p.2).map fun q => (p.1 :: q.1, q.2)

/-- The file `Check_emp.lp`: the numbers in the line after `begin`, the rows, and the row after `maximize`. -/
structure LpFile where
  numRows : ℕ
  numCols : ℕ
  rows : List (List ℤ)
  objective : List ℤ
  deriving DecidableEq

/-- The lines for equations, CheckEmpty.cpp:126–132. -/
def equRows (entries : List (List ℤ)) (equs : List ℤ) : List (List ℤ) :=
  equs.map fun e => ((entries[(e - 1).toNat]?).getD []).map fun z => -z

/-- The lines for nonnegative variables, CheckEmpty.cpp:103–110, 133–138: one for each of the `d - 1` variables, zero for those not listed. -/
def nonnegRows (d : ℕ) (index : List ℤ) : List (List ℤ) :=
  (List.range (d - 1)).map fun i : ℕ => 0 :: (List.range (d - 1)).map fun j : ℕ => if i = j ∧ ((i : ℤ) + 1) ∈ index then 1 else 0

/-- The file written, CheckEmpty.cpp:89, 112–148. -/
def lpFile (s : Scan) (c d : ℕ) (entries : List (List ℤ)) : LpFile where
  numRows := c + (if s.flag = 2 then d - 1 else 0) + (s.equ.getD []).length
  numCols := d
  rows := entries ++ equRows entries (s.equ.getD []) ++ (match s.nonneg with | none => [] | some index => nonnegRows d index)
  objective := 0 :: (entries.headD []).tail

/-- How a call ends: normally; `exit(1)`; an exception, after writing the given text to `numOfLatticePoints`; or with access outside of an array
(`equs`, `entries`, `NONNEG`). -/
inductive Outcome where
  | done
  | exit1
  | thrown (numOfLatticePoints : String)
  | undefined
  deriving DecidableEq

/-- `CheckEmpty`, CheckEmpty.cpp:49–180; `none` for a file that is not of the right form.  The file exists and `Check_emp.lp` can be written. -/
def checkEmpty (cdd : LpFile → Option (List String)) (ts : List Tok) : Option Outcome :=
  (scan (ts.length + 3) ts {}).bind fun s =>
  match ts with
  | .num c :: .num d :: rest =>
    if c < 0 ∨ d < 1 then none else
    (readRows c.toNat d.toNat rest).map fun p =>
      let entries := p.1
      if (s.equ.getD []).length > c.toNat ∨ (∃ e ∈ s.equ.getD [], e < 1 ∨ c < e) ∨ (∃ j ∈ s.nonneg.getD [], j < 1 ∨ d < j) ∨ (c = 0 ∧ 1 < d) then .undefined
      else
        match cdd (lpFile s c.toNat d.toNat entries) with
        | none => .exit1
        | some words => if "primal_solution" ∈ words ∨ "primal_direction" ∈ words then .done else .thrown "0\n"
  | _ => none

end Verif.Empty
