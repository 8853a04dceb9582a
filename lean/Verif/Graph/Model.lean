import Mathlib.Data.List.Basic
import Mathlib.Data.Rat.Defs

/-!
Model of `code/latte/buildPolytopes/GraphMaker.cpp`.

`edges` (a `vector<vector<int>>`, GraphMaker.h:34) is a list of lists of vertex numbers; the calls of `rand()` are a
list of arbitrary numbers given in advance; a loop that asks for more random numbers than the list contains is still
running (`more`).  Machine-integer overflow of vertex and edge counts is not modelled.
-/

namespace Verif.Graph

/-- outcome of a generator -/
inductive Out (α : Type) where
  | done (a : α)
  /-- the loop has used up the given random numbers and goes on -/
  | more
  /-- undefined behaviour (index out of range) -/
  | undefined
  deriving DecidableEq

/-- the adjacency lists -/
abbrev Edges := List (List ℕ)

/-- GraphMaker.cpp:28-42 `addEdgeInOrder`, the branch `v1 <= v2`: `(true, …)` if the edge was added. -/
def addOrdered (E : Edges) (v1 v2 : ℕ) : Option (Bool × Edges) :=
  match E[v1]? with
  | none => none
  | some l => if v2 ∈ l then some (false, E) else some (true, E.set v1 (l ++ [v2]))

/-- GraphMaker.cpp:28-42 `addEdgeInOrder`; `none` is an index out of range. -/
def addEdgeInOrder (E : Edges) (v1 v2 : ℕ) : Option (Bool × Edges) :=
  if v1 ≤ v2 then addOrdered E v1 v2 else addOrdered E v2 v1

/-- `edges.clear(); edges.resize(numVertex);` (e.g. GraphMaker.cpp:382-384) -/
def emptyEdges (n : ℕ) : Edges := List.replicate n []

/-- `edges[i].push_back(v)`; an index out of range (undefined behaviour) is marked by destroying the whole structure:
the result, and everything pushed to it later, is the empty list. -/
def push (E : Edges) (i v : ℕ) : Edges :=
  if i < E.length then E.set i (E.getD i [] ++ [v]) else []

/-- GraphMaker.cpp:427-441 the loop of `makeRandomSpanningTree`; the first argument is `lastUnused + 1`. -/
def spanLoop : ℕ → List ℕ → List ℕ → List ℕ → Edges → Out (List ℕ × Edges)
  | 0, draws, _, _, E => .done (draws, E)
  | k + 1, d1 :: d2 :: ds, unused, used, E =>
    match used[d1 % used.length]? with
    | none => .undefined
    | some currentUsed =>
      let idx := d2 % (k + 1)
      match unused[idx]?, unused[k]? with
      | some a, some b =>
        let unused' := (unused.set idx b).set k a
        match addEdgeInOrder E currentUsed a with
        | none => .undefined
        | some (_, E') => spanLoop k ds unused' (used ++ [a]) E'
      | _, _ => .undefined
  | _ + 1, _, _, _, _ => .more

/-- GraphMaker.cpp:418-442 `makeRandomSpanningTree` on the current edges. -/
def makeRandomSpanningTree (numVertex : ℕ) (draws : List ℕ) (E : Edges) : Out (List ℕ × Edges) :=
  spanLoop (numVertex - 1) draws (List.range (numVertex - 1)) [numVertex - 1] E

/-- The three loops of the form "draw two vertices until enough edges have been added"
(GraphMaker.cpp:391-406 with `g = numVertex`, `off = 0`; 336-347 with `g = vertexG1`, `off = 0`;
351-363 with `g = vertexG2`, `off = vertexG1`).  Result: the unused random numbers and the edges. -/
def fillLoop (g off edgeCount : ℕ) : ℕ → List ℕ → Edges → Out (List ℕ × Edges)
  | current, d1 :: d2 :: ds, E =>
    if current < edgeCount then
      let v1 := d1 % g + off
      let v2 := d2 % g + off
      if v1 = v2 then fillLoop g off edgeCount current ds E
      else match addEdgeInOrder E v1 v2 with
        | none => .undefined
        | some (true, E') => fillLoop g off edgeCount (current + 1) ds E'
        | some (false, E') => fillLoop g off edgeCount current ds E'
    else .done (d1 :: d2 :: ds, E)
  | current, ds, E => if current < edgeCount then .more else .done (ds, E)

/-- GraphMaker.cpp:370-412 `makeRandomConnectedGraph` starting from edges `old`; bad sizes leave them unchanged. -/
def makeRandomConnectedGraph (size edgeCount : ℕ) (draws : List ℕ) (old : Edges) : Out Edges :=
  if size ≤ 2 ∨ size > edgeCount + 1 ∨ edgeCount > size * (size - 1) / 2 then .done old
  else
    match makeRandomSpanningTree size draws (emptyEdges size) with
    | .done (ds, E) =>
      match fillLoop size 0 edgeCount (size - 1) ds E with
      | .done (_, E') => .done E'
      | .more => .more
      | .undefined => .undefined
    | .more => .more
    | .undefined => .undefined

/-- GraphMaker.cpp:310-365 `makeRandomDisconnectedGraph`. -/
def makeRandomDisconnectedGraph (size edgeCount : ℕ) (draws : List ℕ) (old : Edges) : Out Edges :=
  if size < 4 then .done old
  else
    let vertexG1 := (size + 1) / 2
    let vertexG2 := size / 2
    let edgeG1 := (edgeCount + 1) / 2
    let edgeG2 := edgeCount / 2
    match fillLoop vertexG1 0 edgeG1 0 draws (emptyEdges size) with
    | .done (ds, E) =>
      match fillLoop vertexG2 vertexG1 edgeG2 0 ds E with
      | .done (_, E') => .done E'
      | .more => .more
      | .undefined => .undefined
    | .more => .more
    | .undefined => .undefined

/-- GraphMaker.cpp:240-258 `makeLinearGraph`. -/
def makeLinearGraph (size : ℕ) (old : Edges) : Edges :=
  if size ≤ 1 then old
  else (List.range (size - 1)).foldl (fun E k => push E k (k + 1)) (emptyEdges size)

/-- GraphMaker.cpp:151-171 `makeCircleGraph`. -/
def makeCircleGraph (size : ℕ) (old : Edges) : Edges :=
  if size ≤ 2 then old
  else push ((List.range (size - 1)).foldl (fun E k => push E k (k + 1)) (emptyEdges size)) 0 (size - 1)

/-- GraphMaker.cpp:112-146 `makeCircleWithCenter`; `none`: division by zero in `k % offset`. -/
def makeCircleWithCenter (size offset : ℕ) (old : Edges) : Option Edges :=
  if size ≤ 3 then some old
  else
    let E := (List.range (size - 2)).foldl (fun E k => push E k (k + 1)) (emptyEdges size)
    let E := push E 0 (size - 2)
    if offset = 0 then none
    else some ((List.range (size - 1)).foldl (fun E k => if k % offset = 0 then push E k (size - 1) else E) E)

/-- GraphMaker.cpp:60-101 `makeCheckerboard`. -/
def makeCheckerboard (row col : ℕ) (old : Edges) : Edges :=
  if row ≤ 1 ∨ col ≤ 1 then old
  else
    let E := emptyEdges (row * col)
    let E := (List.range (row - 1)).foldl (fun E currentRow =>
      (List.range (col - 1)).foldl (fun E currentCol =>
        let rowIndex := currentRow * col
        push (push E (rowIndex + currentCol) (rowIndex + currentCol + 1))
          (rowIndex + currentCol) ((currentRow + 1) * col + currentCol)) E) E
    let E := (List.range (row - 1)).foldl (fun E currentRow =>
      push E (currentRow * col + col - 1) ((currentRow + 1) * col + col - 1)) E
    (List.range (col - 1)).foldl (fun E currentCol =>
      push E ((row - 1) * col + currentCol) ((row - 1) * col + currentCol + 1)) E

/-- GraphMaker.cpp:292-304 `makePetersenSubGraph`. -/
def makePetersenSubGraph (start : ℕ) (E : Edges) : Edges :=
  let E := (List.range 4).foldl (fun E i => push E (start + i) (start + i + 1)) E
  let E := push E start (start + 4)
  let E := (List.range 5).foldl (fun E i => push E (start + i) (start + i + 5)) E
  let E := (List.range 3).foldl (fun E i => push E (start + 5 + i) (start + 5 + i + 2)) E
  (List.range 2).foldl (fun E i => push E (start + 5 + i) (start + 5 + i + 3)) E

/-- GraphMaker.cpp:276-286 `makePetersenFunGraph` (and 264-271 `makePetersenGraph` for `num = 1`). -/
def makePetersenFunGraph (num : ℕ) : Edges :=
  (List.range num).foldl (fun E i => makePetersenSubGraph (i * 10) E) (emptyEdges (10 * num))

/-- GraphMaker.cpp:483-506 `nchoosek`, before the final conversion to `int`: the numerator of the reduced
fraction; `-1` for bad input. -/
def nchoosek (n k : ℤ) : ℤ :=
  if n < k then -1
  else
    let top := (List.range k.toNat).foldl (fun (p : ℤ) (i : ℕ) => p * (n - (i : ℤ))) 1
    let bottom := (List.range k.toNat).foldl (fun (p : ℤ) (i : ℕ) => p * ((i : ℤ) + 1)) 1
    ((top : ℚ) / (bottom : ℚ)).num

end Verif.Graph
