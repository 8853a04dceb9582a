import Verif.Files.Matrix
import Verif.Empty.Model
import Verif.Gmp.Model
import Verif.Preprocess.Model
import Verif.CddV.Model

/-!
# Model of `count` with a file in LattE format, from the text to the number

`code/latte/count.cpp`, `ReadPolyhedronData::read_polyhedron_hairy`, `PolyhedronFromHrepMatrix`, `polyhedronRedundancyCheck`, `projectOutVariables`,
`matrixToVerticesOrCones` (`code/latte/ReadPolyhedron.cpp`) and `cddlib_matrix_to_equations_and_inequalities` (`code/latte/latte_cddlib.cpp`), put together from the
models of their parts.  Options: `--exp`, else the defaults (inequalities, vertex cones with cdd, full redundancy check with cddlib, dual decomposition).
-/

namespace Verif.Whole

open Verif.Barvinok Verif.Ti2 Verif.ExpSubst Verif.Files Verif.Preprocess Latte.Decimal

/-- What `operator>>` for strings finds: the maximal pieces without white space.  The first argument is the word begun, reversed. -/
def splitWords : List Char → List Char → List (List Char)
  | acc, [] => if acc = [] then [] else [acc.reverse]
  | acc, c :: s => if isSpace c then (if acc = [] then splitWords [] s else acc.reverse :: splitWords [] s) else splitWords (c :: acc) s

/-- The text as the list of numbers and words that the test for emptiness reads (CheckEmpty.cpp:64–94). -/
def tokens (s : List Char) : List Empty.Tok :=
  (splitWords [] s).map fun w => match parseInt w with | some z => .num z | none => .word (String.ofList w)

/-- latte_cddlib.cpp:111–116: a row of the matrix in integers; `none` is a failed assertion (`convert_mpq_to_ZZ`). -/
def toRow (n : ℕ) (raw : List RawQ) : Option (Row n) :=
  (raw.mapM fun q => Gmp.convertMpqToZZ q.1 q.2.toNat).map fun l => ⟨l.getD 0 0, fun k => l.getD (k + 1) 0⟩

/-- `cddlib_matrix_to_equations_and_inequalities`, latte_cddlib.cpp:101–122, from row `i` (from 0) on.  The code goes from the last row to the first and prepends. -/
def splitRows (n : ℕ) (linset : Finset ℕ) : ℕ → List (List RawQ) → Option (List (Row n) × List (Row n))
  | _, [] => some ([], [])
  | i, raw :: rows =>
    match toRow n raw, splitRows n linset (i + 1) rows with
    | some r, some (E, I) => if i + 1 ∈ linset then some (r :: E, I) else some (E, r :: I)
    | _, _ => none

/-- The external programs and libraries and the random vectors. `lp`: cdd for linear programs; `canonicalize`: `dd_MatrixCanonicalize` (ReadPolyhedron.cpp:718–729);
`vertices`: cdd's files of vertices and adjacencies; the others as in the parts. -/
structure Tools where
  lp : Empty.LpFile → Option (List String)
  canonicalize : LMatrix → LMatrix
  vertices : ∀ d, List (ℤ × Vec d) → List (List ℚ) × List CddV.Tok
  rays : Rays
  ntl : ∀ d, Ntl (d + 1)
  xgcd : Smith.Xgcd
  irr : ∀ d, Cone (d + 1) → Fin (d + 1) → ℚ
  triangulate : ∀ d, ℕ → List (Vec (d + 1)) → ℕ → Except Fail (List (List (Vec (d + 1))) × ℕ)
  guess : ∀ d, ℕ → Vec (d + 1)

/-- Bounds of the loops and the option `maxdet`. -/
structure Limits where
  maxDet : ℤ
  fuel : ℕ
  hermite : ℕ
  tries : ℕ

/-- How a run ends: with a number in the file `numOfLatticePoints`; with status 0 and no number; with the message that the polytope is not bounded; with an error status
or exception and no number; with a failed assertion or too few rounds of a loop; with undefined behaviour. -/
inductive Ending where
  | number (k : ℤ)
  | noNumber
  | notBounded
  | stop
  | failed (e : Fail)
  | undefined
  deriving DecidableEq

/-- `matrixToVerticesOrCones` with cdd (ReadPolyhedron.cpp:293–330) and the rest of `count` for a list of inequalities. Without variables nothing is claimed. -/
def countRows (T : Tools) (L : Limits) : ∀ d, List (Row d) → Ending
  | 0, _ => .undefined
  | d + 1, rows =>
    let ineqs : List (ℤ × Vec (d + 1)) := rows.map fun r => (r.b, r.a)
    match CddV.countCdd (T.vertices (d + 1) ineqs).1 (T.vertices (d + 1) ineqs).2 T.rays (T.ntl d) T.xgcd (T.irr d) L.maxDet L.fuel ineqs L.tries (T.triangulate d)
        (T.guess d) with
    | .number k => .number k
    | .noNumber => .noNumber
    | .stop => .stop
    | .failed e => .failed e
    | .undefined => .undefined

/-- `projectOutVariables`, ReadPolyhedron.cpp:745–806, with dilation 1, and what follows. -/
def projectAndCount (T : Tools) (L : Limits) (n : ℕ) (E I : List (Row n)) : Ending :=
  if E = [] then countRows T L n I
  else
    match preprocessProblem L.hermite (fun j : Fin E.length => E.get j) I 0 1 with
    | .count k => .number k
    | .notBounded => .notBounded
    | .crash => .undefined
    | .fuel => .failed .fuel
    | .reduced d out _ _ _ => countRows T L d out

/-- `PolyhedronFromHrepMatrix`, ReadPolyhedron.cpp:665–692. -/
def countMatrix (T : Tools) (L : Limits) (M : LMatrix) : Ending :=
  match splitRows ((T.canonicalize M).colsize - 1) (T.canonicalize M).linset 0 (T.canonicalize M).rows with
  | none => .failed .abort
  | some (E, I) => projectAndCount T L ((T.canonicalize M).colsize - 1) E I

/-- `count` for a file in LattE format with inequalities: `read_polyhedron_hairy`, ReadPolyhedron.cpp:640–663: the test for emptiness, then the matrix. -/
def countFile (T : Tools) (L : Limits) (s : List Char) : Ending :=
  match Empty.checkEmpty T.lp (tokens s) with
  | none => .undefined
  | some .exit1 => .stop
  | some .undefined => .undefined
  | some (.thrown text) =>
    match scanInt text.toList with
    | some (k, _) => .number k
    | none => .stop
  | some .done =>
    match readLatteStyleMatrix s false false false with
    | .error => .stop
    | .outOfBounds => .undefined
    | .ok M => countMatrix T L M

end Verif.Whole
