import Verif.Options.Rounds
import Verif.Whole.Rows

/-!
# C96: `count` for a file, with the other ways to compute vertex cones and to decompose them

Everything before the vertices are computed is as in C92 (`fileRows`).
-/

namespace Verif.Options

open Verif.Barvinok Verif.Barvinok.Spec Verif.Brion Verif.Ti2 Verif.Regular Verif.Irrational Verif.Preprocess Verif.Whole
open Verif.ExpSubst (Fail)

/-- The option `--compute-vertex-cones`: `cdd` (default) or `4ti2`, ReadPolyhedron.cpp:293–311. -/
inductive VertexTool where
  | cdd
  | fourTiTwo
  deriving DecidableEq

/-- The linear programs and estimates of depth behind the irrational variants, Irrational.cpp:217–340. -/
structure Movers where
  lp : ∀ d, Solver (d + 1)
  single : ∀ d, Cone (d + 1) → ℕ
  general : ∀ d, (Fin (d + 1) → ℚ) → List (Vec (d + 1)) → List (Vec (d + 1)) → ℕ

/-- The options: how vertex cones are computed; `--dual` (default), `--irrational-primal` or `--irrational-all-primal`. -/
structure Choice where
  tool : VertexTool
  variant : Variant

/-- The vertex cones, `matrixToVerticesOrCones`, ReadPolyhedron.cpp:293–330: the end of the program, or the flag `unbounded` and the cones. -/
def vertexStage (T : Tools) (tool : VertexTool) (d : ℕ) (rows : List (Row (d + 1))) : Except Ending (Bool × List (GCone (d + 1))) :=
  match tool with
  | .cdd =>
    match (CddV.computeVertexCones (T.vertices (d + 1) (pairs rows)).1 (T.vertices (d + 1) (pairs rows)).2 : CddV.Outcome (d + 1)) with
    | .done (some k) => .error (.number k)
    | .done none => .error .noNumber
    | .stop => .error .stop
    | .undefined => .error .undefined
    | .cones cones => .ok (false, cones)
  | .fourTiTwo =>
    match vertexCones T.rays (pairs rows) with
    | .error e => .error (.failed e)
    | .ok r => .ok r

/-- What is done with the cones before they are triangulated, count.cpp:354–373 and 402–461: tight inequalities as facets; dual and irrational primal: the dual cones; irrational all-primal: both
rays and facets, and the vertices are moved. -/
def prepare (T : Tools) (M : Movers) (v : Variant) (d : ℕ) (ineqs : List (ℤ × Vec (d + 1))) (cones : List (GCone (d + 1))) :
    Except Fail (List ((Fin (d + 1) → ℚ) × List (Vec (d + 1)))) :=
  match v with
  | .irrationalAllPrimal =>
    match allPrimalCones T.rays (cones.map (tightFacets ineqs)) with
    | .error e => .error e
    | .ok cones =>
      match moveCones (M.lp d) (M.general d) cones with
      | none => .error .abort
      | some out => .ok out
  | _ =>
    match dualizeCones T.rays ((cones.map (tightFacets ineqs)).map (tightFacets ineqs)) with
    | .error e => .error e
    | .ok cones => .ok (cones.map fun C => (C.vertex, C.rays))

/-- The rest of `count` for a list of inequalities, ReadPolyhedron.cpp:293–330, count.cpp:354–461, 547–554 and the decomposition with the exponential substitution. -/
def countCones (T : Tools) (M : Movers) (o : Choice) (L : Limits) (d : ℕ) (rows : List (Row (d + 1))) : Ending :=
  match vertexStage T o.tool d rows with
  | .error e => e
  | .ok (unbounded, cones) =>
    match prepare T M o.variant d (pairs rows) cones with
    | .error e => .failed e
    | .ok cones =>
      if unbounded then .notBounded
      else
        match triangulateAndCount (T.ntl d) T.xgcd o.variant (irrVertex (M.single d)) L.maxDet L.fuel cones L.tries (T.triangulate d) (T.guess d) with
        | .error e => .failed e
        | .ok k => .number k

/-- Without variables nothing is claimed. -/
def countRows (T : Tools) (M : Movers) (o : Choice) (L : Limits) : ∀ d, List (Row d) → Ending
  | 0, _ => .undefined
  | d + 1, rows => countCones T M o L d rows

/-- `count --exp` with these options for a file in LattE format with inequalities. -/
def countFile (T : Tools) (M : Movers) (o : Choice) (L : Limits) (s : List Char) : Ending :=
  match fileRows T L.hermite s with
  | .ended e => e
  | .rows d l => countRows T M o L d l

end Verif.Options
