import Verif.Files.Stream

/-!
# C100: reading triangulations of TOPCOM (model)

`read_TOPCOM_triangulation` and `all_triangulations_of_cone_with_TOPCOM` in `code/latte/triangulation/TriangulationWithTOPCOM.cpp`.
The stream is the list of the characters left; it is `good` unless stated otherwise.  The file is supposed to have been opened.
-/

namespace Verif.Topcom

open Verif.Files Latte.Decimal

variable {α : Type}

/-- How the loop over the indices of a simplex ends: with the rays collected (the last one first), the characters left, and whether the stream is still good. -/
inductive Inner (α : Type) where
  | stop (rays : List α) (s : List Char) (good : Bool)
  | undefined
  | fuel

/-- How reading ends: cones (in the order in which they are consumed) and the characters left; `exit(1)`; undefined behaviour. -/
inductive Res (α β : Type) where
  | ok (a : α) (rest : β)
  | exit
  | undefined
  | fuel
  deriving DecidableEq

/-- Lines 134–140.  `peek` at the end of the file makes the stream bad; `>>` then leaves `index` as it is, without a value.  If there is no number, `>>` sets it to 0 and the stream is bad; a number out
of the range of `int` gives the largest or smallest `int`.  If a number ends with the file, the stream is not good any more. -/
def rayLoop (rays : List α) : ℕ → List Char → List α → Inner α
  | 0, _, _ => .fuel
  | f + 1, s, acc =>
    match s with
    | [] => .undefined
    | c :: cs =>
      if c = '}' then .stop acc (c :: cs) true
      else
        match readInt (c :: cs) with
        | some (z, r) =>
          match (if 0 ≤ z then rays[z.toNat]? else none) with
          | none => .undefined
          | some ray =>
            match r with
            | [] => .stop (ray :: acc) [] false
            | d :: r' => if d = ',' then rayLoop rays f r' (ray :: acc) else rayLoop rays f (d :: r') (ray :: acc)
        | none =>
          if (scanInt (c :: cs)).isNone ∧ (c :: cs).dropWhile isSpace ≠ [] then
            match rays[0]? with
            | none => .undefined
            | some ray => .stop (ray :: acc) (c :: cs) false
          else .undefined

/-- Lines 128–149: the loop over the simplices. -/
def simplices (rays : List α) : ℕ → List Char → List (List α) → Res (List (List α)) (List Char)
  | 0, _, _ => .fuel
  | f + 1, s, acc =>
    match s with
    | [] => .exit
    | c :: s1 =>
      if c = '{' then
        match rayLoop rays (s1.length + 1) s1 [] with
        | .fuel => .fuel
        | .undefined => .undefined
        | .stop _ _ false => .exit
        | .stop rs s2 true =>
          match s2 with
          | _ :: d :: s4 => if d = '}' then .ok (acc ++ [rs]) s4 else if d = ',' then simplices rays f s4 (acc ++ [rs]) else .exit
          | _ => .exit
      else .exit

/-- `read_TOPCOM_triangulation`, lines 116–153. -/
def readTriangulation (rays : List α) (s : List Char) : Res (List (List α)) (List Char) :=
  match s.dropWhile (· ≠ '{') with
  | [] => .exit
  | _ :: s1 => simplices rays (s1.length + 1) s1 []

/-- `all_triangulations_of_cone_with_TOPCOM`, lines 205–212: the loop, with the triangulations found so far. -/
def allLoop (rays : List α) : ℕ → List Char → List (List (List α)) → Res (List (List (List α))) Unit
  | 0, _, _ => .fuel
  | f + 1, s, acc =>
    match readTriangulation rays s with
    | .fuel => .fuel
    | .undefined => .undefined
    | .exit => .exit
    | .ok cones rest => if cones.isEmpty then .ok acc () else allLoop rays f rest (cones :: acc)

/-- `all_triangulations_of_cone_with_TOPCOM` on the output of TOPCOM. -/
def allTriangulations (rays : List α) (s : List Char) : Res (List (List (List α))) Unit := allLoop rays (s.length + 1) s []

end Verif.Topcom
