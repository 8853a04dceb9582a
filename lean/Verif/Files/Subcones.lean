import Verif.Files.MatrixProps

/-!
Model of `code/latte/ReadSubcones.cpp`: the file format for collections of subcones of a master cone.
A file is its list of characters.
-/

namespace Verif.Files

open Latte.Decimal

/-! ### The writer -/

/-- `setw(w) << left`: blanks on the right up to `w` characters -/
def padRight (w : ℕ) (s : List Char) : List Char := s ++ List.replicate (w - s.length) ' '

/-- ReadSubcones.h:52-64 `IncrementalVectorFileWriter`, with the contents of its file -/
structure Writer where
  dimension : ℕ
  numVectors : ℕ
  content : List Char

/-- ReadSubcones.cpp:138-139: the first line -/
def headerLine (num : ℤ) (dim : ℕ) : List Char :=
  padRight 16 (printInt num) ++ ([' '] ++ (printInt (dim : ℤ) ++ ['\n']))

/-- ReadSubcones.cpp:130-140 the constructor -/
def Writer.new (dim : ℕ) : Writer := ⟨dim, 0, headerLine (-1) dim⟩

/-- a bit, as `operator<<` prints a `bool` -/
def bit (b : Bool) : List Char := if b then ['1'] else ['0']

/-- ReadSubcones.cpp:168-171 one line -/
def vectorLine (v : List Bool) : List Char := v.flatMap (fun b => bit b ++ [' ']) ++ ['\n']

/-- ReadSubcones.cpp:163-177 `WriteVector`; `none`: the assertion fails. -/
def Writer.writeVector (w : Writer) (v : List Bool) : Option Writer :=
  if w.dimension = v.length then
    some { w with numVectors := w.numVectors + 1, content := w.content ++ vectorLine v }
  else none

/-- writing at the beginning of a file overwrites -/
def overwrite (s t : List Char) : List Char := s ++ t.drop s.length

/-- ReadSubcones.cpp:195-206 `UpdateNumVectors`, also called by the destructor (line 144) -/
def Writer.update (w : Writer) : Writer :=
  { w with content := overwrite (padRight 16 (printInt (w.numVectors : ℤ))) w.content }

/-- what can be done with a writer -/
inductive WOp where
  | write (v : List Bool)
  | update
  deriving DecidableEq

/-- one operation -/
def Writer.step (w : Writer) : WOp → Option Writer
  | .write v => w.writeVector v
  | .update => some w.update

/-- a history of operations -/
def Writer.run (w : Writer) : List WOp → Option Writer
  | [] => some w
  | o :: os => (w.step o).bind fun w' => w'.run os

/-! ### The reader -/

/-- a ray of a cone in memory: the vector and `index_hint` -/
structure Ray where
  vec : List ℤ
  hint : ℤ
  deriving DecidableEq

/-- the parts of a `listCone` that are used: rays and `index_hint` -/
structure SCone where
  rays : List Ray
  hint : ℤ
  deriving DecidableEq

/-- ReadSubcones.cpp:28-34 `check_stream`: no failure, and the end of the file was not seen -/
def checkGood (s : List Char) : Option (List Char) := if s = [] then none else some s

/-- ReadSubcones.cpp:86-94 the entries of one line -/
def readBits : ℕ → List Char → Option (List Bool × List Char)
  | 0, s => some ([], s)
  | n + 1, s =>
    (readInt s).bind fun (x, r) =>
      if x = 0 ∨ x = 1 then (readBits n r).map fun (xs, r') => (decide (x = 1) :: xs, r') else none

/-- ReadSubcones.cpp:55-60: loop over the rays from number `i` on; every selected ray is put in front. -/
def collectRays : ℕ → List (List ℤ) → List Bool → List Ray → List Ray
  | i, v :: vs, b :: bs, acc => collectRays (i + 1) vs bs (if b then ⟨v, (i : ℤ)⟩ :: acc else acc)
  | _, _, _, acc => acc

/-- ReadSubcones.cpp:48-63 `cone_from_ray_indicator` -/
def coneFromIndicator (master : List (List ℤ)) (ind : List Bool) (hint : ℤ) : SCone :=
  ⟨collectRays 0 master ind [], hint⟩

/-- ReadSubcones.cpp:84-100: cones number `i`, … , `n` of them -/
def readCones (master : List (List ℤ)) : ℕ → ℕ → List Char → Option (List SCone)
  | _, 0, _ => some []
  | i, n + 1, s =>
    (readBits master.length s).bind fun (ind, r) =>
      (checkGood r).bind fun r =>
        (readCones master (i + 1) n r).map fun cs => coneFromIndicator master ind i :: cs

/-- ReadSubcones.cpp:65-101 `ReadSubcones`: the cones given to the consumer; `none`: the program exits with an error
message.  For a negative number of cones the loop is empty. -/
def readSubcones (master : List (List ℤ)) (s : List Char) : Option (List SCone) :=
  (readInt s).bind fun (n, r) =>
    (readInt r).bind fun (d, r) =>
      (checkGood r).bind fun r =>
        if d ≠ master.length then none else readCones master 0 n.toNat r

/-! ### The consumer that prints -/

/-- ReadSubcones.cpp:213-220 `index_map`: the first index of every vector (`insert` does not replace) -/
def indexMap (master : List (List ℤ)) (v : List ℤ) : Option ℕ :=
  if v ∈ master then some (master.idxOf v) else none

/-- ReadSubcones.cpp:232: `index_map.size()`, the number of different rays -/
def indexMapSize (master : List (List ℤ)) : ℕ := master.dedup.length

/-- outcomes of `ConsumeCone` -/
inductive Consume (α : Type) where
  | ok (a : α)
  /-- the program exits with a message -/
  | exit
  /-- a write outside of `ray_indicator` -/
  | outOfBounds
  /-- the assertion in `WriteVector` fails -/
  | abort

/-- ReadSubcones.cpp:236-251: the index of one ray -/
def rayIndex (master : List (List ℤ)) (r : Ray) : Option ℕ :=
  if 0 ≤ r.hint ∧ r.hint < master.length ∧ r.vec = master.getD r.hint.toNat [] then some r.hint.toNat
  else indexMap master r.vec

/-- ReadSubcones.cpp:235-253 the loop over the rays -/
def indicator (master : List (List ℤ)) : List Ray → List Bool → Consume (List Bool)
  | [], ind => .ok ind
  | r :: rs, ind =>
    match rayIndex master r with
    | none => .exit
    | some i => if i < ind.length then indicator master rs (ind.set i true) else .outOfBounds

/-- ReadSubcones.cpp:229-257 `ConsumeCone` -/
def consumeCone (master : List (List ℤ)) (w : Writer) (c : SCone) : Consume Writer :=
  match indicator master c.rays (List.replicate (indexMapSize master) false) with
  | .ok ind =>
    match w.writeVector ind with
    | none => .abort
    | some w' => .ok w'
  | .exit => .exit
  | .outOfBounds => .outOfBounds
  | .abort => .abort

/-- a series of cones -/
def consumeCones (master : List (List ℤ)) (w : Writer) : List SCone → Consume Writer
  | [] => .ok w
  | c :: cs =>
    match consumeCone master w c with
    | .ok w' => consumeCones master w' cs
    | e => e

/-- ReadSubcones.cpp:209-227: construct, consume the cones, destroy; the file that is left -/
def writeSubcones (master : List (List ℤ)) (cs : List SCone) : Consume (List Char) :=
  match consumeCones master (Writer.new master.length) cs with
  | .ok w => .ok w.update.content
  | .exit => .exit
  | .outOfBounds => .outOfBounds
  | .abort => .abort

end Verif.Files
