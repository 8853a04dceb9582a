import Verif.Files.Matrix

/-!
Model of `code/latte/aggregation/aggregation.cpp`: aggregation of equations and inequalities into one equation, after
Kannan (1983).

Simplifications: entries are reduced fractions; the `int` product `3 * num_aggrows * (num_cols - 1)` does not overflow;
the loops over the columns of a row are written as one simultaneous update of that row.
-/

namespace Verif.Aggregate

open Verif.Files

/-- results of the first pass -/
structure Scan where
  numSlacks : ℕ
  bMax : ℤ
  aMax : ℤ

/-- aggregation.cpp:64-77: the coefficients of one row; `none`: the program exits with a message. -/
def scanA (aMax : ℤ) : List ℚ → Option ℤ
  | [] => some aMax
  | a :: as =>
    if a > 0 then none
    else if a.den ≠ 1 then none
    else scanA (if -a.num > aMax then -a.num else aMax) as

/-- aggregation.cpp:46-78: one row (0-based number `i`) -/
def scanRow (m : QMatrix) (agg : Finset ℕ) (st : Scan) (i : ℕ) : Option Scan :=
  if i + 1 ∈ agg then
    let row := m.rows.getD i []
    let b := row.getD 0 0
    if b < 0 then none
    else if b.den ≠ 1 then none
    else
      (scanA st.aMax row.tail).map fun a =>
        { numSlacks := if i + 1 ∉ m.linset then st.numSlacks + 1 else st.numSlacks
          bMax := if b.num > st.bMax then b.num else st.bMax
          aMax := a }
  else some st

/-- aggregation.cpp:43-79: the first pass -/
def scan (m : QMatrix) (agg : Finset ℕ) : Option Scan :=
  (List.range m.rows.length).foldlM (scanRow m agg) ⟨0, 0, 0⟩

/-- state of the second pass: the cells of the new matrix (row, column) and the running variables -/
structure Fill where
  cells : ℕ → ℕ → ℚ
  linset : Finset ℕ
  li : ℤ
  slackVar : ℕ
  slackRow : ℕ
  dest : ℕ

/-- `dd_set(new_matrix->matrix[r][c], v)` -/
def setCell (f : ℕ → ℕ → ℚ) (r c : ℕ) (v : ℚ) : ℕ → ℕ → ℚ := fun r' c' => if r' = r ∧ c' = c then v else f r' c'

/-- an entry of the old matrix -/
def entry (m : QMatrix) (i j : ℕ) : ℚ := (m.rows.getD i []).getD j 0

/-- aggregation.cpp:95-127: one row in the second pass -/
def fillRow (m : QMatrix) (agg : Finset ℕ) (aggIdx : ℕ) (lam lmp1 : ℤ) (st : Fill) (i : ℕ) : Fill :=
  if i + 1 ∈ agg then
    let mult : ℤ := lmp1 + st.li
    let cells1 : ℕ → ℕ → ℚ := fun r c =>
      if r = aggIdx ∧ c < m.colsize then st.cells r c + mult * entry m i c else st.cells r c
    if i + 1 ∉ m.linset then
      { st with
        cells := setCell (setCell cells1 aggIdx st.slackVar (-(mult : ℚ))) st.slackRow st.slackVar 1
        slackVar := st.slackVar + 1
        slackRow := st.slackRow + 1
        li := st.li * lam }
    else { st with cells := cells1, li := st.li * lam }
  else
    { st with
      cells := fun r c => if r = st.dest ∧ c < m.colsize then entry m i c else st.cells r c
      linset := if i + 1 ∈ m.linset then insert (st.dest + 1) st.linset else st.linset
      dest := st.dest + 1 }

/-- aggregation.cpp:36-130 `KannanAggregation`; `none`: the program exits with a message. -/
def kannan (m : QMatrix) (agg : Finset ℕ) : Option QMatrix :=
  (scan m agg).map fun sc =>
    let n := m.rows.length
    let k := agg.card
    let newRows := n + sc.numSlacks - k + 1
    let newCols := m.colsize + sc.numSlacks
    let aggIdx := newRows - 1
    let lam : ℤ := 3 * k * ((m.colsize : ℤ) - 1) * sc.aMax * sc.bMax
    let lmp1 := lam ^ (k + 1)
    let st := (List.range n).foldl (fillRow m agg aggIdx lam lmp1)
      { cells := fun _ _ => 0, linset := {aggIdx + 1}, li := lam, slackVar := m.colsize, slackRow := n - k, dest := 0 }
    { colsize := newCols
      rows := (List.range newRows).map fun r => (List.range newCols).map fun c => st.cells r c
      linset := st.linset }

/-- ReadLatteStyle.cpp:86-108 with `homogenize`: a zero column in front of every row -/
def homogenized (m : QMatrix) : QMatrix :=
  { colsize := m.colsize + 1, rows := m.rows.map fun r => 0 :: r, linset := m.linset }

/-- aggregation.cpp:136-153: the tool.  The string literal passed as third argument is converted to
`homogenize = true`. -/
def aggregateTool (m : QMatrix) (agg : Finset ℕ) : Option QMatrix := kannan (homogenized m) agg

end Verif.Aggregate
