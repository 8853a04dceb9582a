import Verif.Ti2.Model
import Verif.RatVec.Props
import Verif.Rational.Props

/-!
# Model of the vertex cones with cdd

`code/latte/vertices/cdd.cpp`: `readCddExtFile`, `readCddEadFile`, `readCddEadFileFromVrep`, `computeVertexCones`.  The program cdd is not part of the code
modelled: it is given the inequalities and leaves two files, the vertices (`latte_cdd.ext`) and the adjacencies (`latte_cdd.ead`).  The first is modelled as a
list of rows of rational numbers and, where the code looks at characters, as the text of these rows; the second as a list of tokens.
-/

namespace Verif.CddV

open Verif.Barvinok Verif.Ti2 Verif.ExpSubst Latte.Decimal

variable {n : ℕ}

/-- A token of the file of adjacencies: an integer or another word (the colon). -/
inductive Tok where
  | int (z : ℤ)
  | word
  deriving DecidableEq

/-- How the function ends: it returns cones; the program ends with status 0, having opened `numOfLatticePoints` and perhaps written a number to it; it ends with
status 1; the behaviour is undefined (an index out of range, a number expected and not found, a loop that never ends). -/
inductive Outcome (n : ℕ) where
  | cones (l : List (GCone n))
  | done (file : Option ℤ)
  | stop
  | undefined

/-! ## The vertices -/

/-- A number as cdd writes it: a fraction in lowest terms, without the denominator 1. -/
def printQ (q : ℚ) : List Char := printInt q.num ++ if q.den = 1 then [] else '/' :: printNat q.den

/-- A row of the file of vertices. -/
def printRow (row : List ℚ) : List Char := (row.flatMap fun q => ' ' :: printQ q) ++ ['\n']

/-- The blank characters of cdd.cpp:554. -/
def blank (c : Char) : Bool := c = '\n' || c = '\r' || c = ' ' || c = '\t'

/-- What the loop cdd.cpp:554–562 finds. -/
inductive Head where
  | zero
  | text (s : List Char)
  | hangs

/-- cdd.cpp:554–562, where `c` has been read; at the end of the file nothing more is read and the loop does not end. -/
def skipBlank : List Char → Char → Head
  | [], c => if blank c then .hangs else .text [c]
  | d :: s, c => if blank c then (if d = '0' then .zero else skipBlank s d) else .text (c :: d :: s)

/-- cdd.cpp:564–570: is there a slash before the end of the line? -/
def slash : List Char → Option Bool
  | [] => none
  | c :: s => if c = '\n' ∨ c = '\r' then some false else (slash s).map fun f => c = '/' || f

/-- cdd.cpp:542–588: the case of one row; the text is what follows the word after the numbers of rows and columns. -/
def oneRow (text : List Char) : Outcome n :=
  match text with
  | [] => .undefined
  | c :: s =>
    match skipBlank s c with
    | .zero => .done none
    | .hangs => .undefined
    | .text t =>
      match slash t with
      | none => .undefined
      | some true => .done (some 0)
      | some false => .done (some 1)

/-- cdd.cpp:596–601: the entries of a vertex, from the row `(leadingX / leadingY, x / y, ...)`. -/
def vertexEntries : List ℚ → List (ℤ × ℤ)
  | [] => []
  | q0 :: qs => qs.map fun q => (q.num * q0.den, q.den * q0.num)

/-- cdd.cpp:589–621: the loop over the rows; `none` if the leading entry of a row is 0. -/
def readVertices : List (List ℚ) → Option (List (List (ℤ × ℤ)))
  | [] => some []
  | row :: rows =>
    if row.head? = some 0 then none
    else (readVertices rows).map fun l => vertexEntries row :: l

/-! ## The adjacencies -/

/-- The loop of `in >> k`, cdd.cpp:684–686, 695–697. -/
def readInts : ℕ → List Tok → Option (List ℤ × List Tok)
  | 0, s => some ([], s)
  | k + 1, .int z :: s => (readInts k s).map fun p => (z :: p.1, p.2)
  | _ + 1, _ => none

/-- The values of `r` in a loop `while (r < k)`. -/
def upTo (r k : ℤ) : List ℤ := (List.range (k - r).toNat).map fun i : ℕ => r + (i : ℤ)

/-- cdd.cpp:694–716: the numbers up to `V` that are not listed. -/
def invert (V : ℤ) : ℤ → List ℤ → List ℤ
  | r, [] => upTo r (V + 1)
  | r, k :: l => upTo r k ++ invert V (max r k + 1) l

/-- One round of the loop over the vertices, cdd.cpp:667–716 (and 812–860 in `readCddEadFileFromVrep`, with `c + V` instead of `V - (-c)`): the numbers of the
adjacent vertices. -/
def readLine (V i : ℕ) : List Tok → Except Bool (List ℤ × List Tok)
  | .int k :: s =>
    if (i : ℤ) ≠ k - 1 then .error true
    else
      match s with
      | .int c :: _ :: s =>
        if 0 ≤ c then
          match readInts c.toNat s with
          | none => .error false
          | some p => .ok p
        else
          match readInts ((V : ℤ) - -c).toNat s with
          | none => .error false
          | some (l, s) => .ok (invert V 1 l, s)
      | _ => .error false
  | _ => .error false

/-- The rays to the vertices with the given numbers, cdd.cpp:687–689, 701–705, 711–715. -/
def rays (vertices : List (List (ℤ × ℤ))) (v : List (ℤ × ℤ)) : List ℤ → Option (List (Vec n))
  | [] => some []
  | k :: l =>
    if k < 1 then none
    else
      match vertices[(k - 1).toNat]? with
      | none => none
      | some w =>
        match Latte.RatVec.constructRay (Latte.RatVec.ofEntries v) (Latte.RatVec.ofEntries w) with
        | none => none
        | some r => (rays vertices v l).map fun rs => (fun j => r.getD j 0) :: rs

/-- The vertex as a point. -/
def point (v : List (ℤ × ℤ)) : Fin n → ℚ := fun j => Latte.RatVec.val (v.getD j (0, 1))

/-- `readCddEadFile`, cdd.cpp:628–727, from vertex `i` on: the loop over the vertices (the number of vertices in the file is the length of the list). -/
def readEad (vertices : List (List (ℤ × ℤ))) : ℕ → List (List (ℤ × ℤ)) → List Tok → Outcome n
  | _, [], _ => .cones []
  | i, v :: rest, s =>
    match readLine vertices.length i s with
    | .error true => .stop
    | .error false => .undefined
    | .ok (l, s) =>
      match rays vertices v l with
      | none => .undefined
      | some rs =>
        match readEad vertices (i + 1) rest s with
        | .cones cs => .cones (⟨point v, rs, [], [], []⟩ :: cs)
        | o => o

/-- `computeVertexCones`, cdd.cpp:873–912, 503–626, given the two files. -/
def computeVertexCones (rows : List (List ℚ)) (ead : List Tok) : Outcome n :=
  match rows with
  | [] => .done (some 0)
  | [row] => oneRow ('\n' :: printRow row)
  | rows =>
    match readVertices rows with
    | none => .done (some 0)
    | some vertices => readEad vertices 0 vertices ead

/-! ## Counting -/

/-- How a run of `count` ends. -/
inductive Report where
  | number (k : ℤ)
  | noNumber
  | stop
  | failed (e : Fail)
  | undefined
  deriving DecidableEq

/-- `count --exp` from the matrix on, without equations, in dual mode (the defaults): ReadPolyhedron.cpp:293–330, count.cpp:354–371, 396–412 and the decomposition.
The number is the one left in the file `numOfLatticePoints`. -/
def countCdd {m : ℕ} (rows : List (List ℚ)) (ead : List Tok) (alg : Rays) (N : Ntl (m + 1)) (X : Smith.Xgcd) (irr : Cone (m + 1) → Fin (m + 1) → ℚ) (maxDet : ℤ)
    (fuel : ℕ) (ineqs : List (ℤ × Vec (m + 1))) (tries : ℕ) (tris : ℕ → List (Vec (m + 1)) → ℕ → Except Fail (List (List (Vec (m + 1))) × ℕ))
    (guesses : ℕ → Vec (m + 1)) : Report :=
  match (computeVertexCones rows ead : Outcome (m + 1)) with
  | .done (some k) => .number k
  | .done none => .noNumber
  | .stop => .stop
  | .undefined => .undefined
  | .cones cones =>
    match dualizeCones alg ((cones.map (tightFacets ineqs)).map (tightFacets ineqs)) with
    | .error e => .failed e
    | .ok cones =>
      match Regular.triangulateAndCount N X .dual irr maxDet fuel (cones.map fun C => (C.vertex, C.rays)) tries tris guesses with
      | .error e => .failed e
      | .ok k => .number k

end Verif.CddV
