import Verif.CddV.Model
import Verif.Ti2.Run
import Mathlib.Analysis.Convex.Segment

/-!
# Specification of the vertices and edges computed by cdd
-/

namespace Verif.CddV

open Verif.Barvinok Verif.Brion Verif.Ti2

variable {n : ℕ}

/-- **Specification.** A rational point as a real one. -/
def real (v : Fin n → ℚ) : Fin n → ℝ := fun k => (v k : ℝ)

/-- **Specification.** The segment between two different vertices is an edge (a face) of the set. -/
def Edge (P : Set (Fin n → ℝ)) (v w : Fin n → ℚ) : Prop := v ≠ w ∧ IsExtreme ℝ P (segment ℝ (real v) (real w))

/-- **Specification.** The point given by a row of cdd's output. -/
def rowPoint (row : List ℚ) : Fin n → ℚ := fun k => row.getD (k + 1) 0 / row.getD 0 0

/-- **Specification.** The vertices number `i` and number `j` (from 1 on) are the ends of an edge. -/
def Adjacent (P : Set (Fin n → ℝ)) (vs : List (Fin n → ℚ)) (i j : ℤ) : Prop :=
  ∃ (a b : ℕ) (v w : Fin n → ℚ), i = a + 1 ∧ j = b + 1 ∧ vs[a]? = some v ∧ vs[b]? = some w ∧ Edge P v w

/-- **Specification.** A line of the file of adjacencies: the number of the vertex, the number of adjacent vertices, a colon and the list of their numbers; or the
number with a minus sign and the list of the others, in increasing order. -/
def IsLine (V : ℕ) (adj : ℤ → ℤ → Prop) (i : ℤ) (line : List Tok) : Prop :=
  ∃ (c : ℤ) (l : List ℤ), line = .int i :: .int c :: .word :: l.map .int ∧
    ((c = l.length ∧ l.Nodup ∧ ∀ k, k ∈ l ↔ adj i k) ∨
      (c < 0 ∧ -c + l.length = V ∧ l.Pairwise (· < ·) ∧ ∀ k, k ∈ l ↔ 1 ≤ k ∧ k ≤ V ∧ ¬ adj i k))

/-- **Specification.** Contract of cdd for the inequalities `b + a · x ≥ 0`: the rows are vertices, with leading entry 1, or directions, with leading entry 0; there
are directions exactly if the polyhedron is not empty and not bounded; and if there are none, the rows are the vertices, each once, and the second file has a line for
each of them. -/
structure CddOk (ineqs : List (ℤ × Vec n)) (rows : List (List ℚ)) (ead : List Tok) : Prop where
  length : ∀ row ∈ rows, row.length = n + 1
  lead : ∀ row ∈ rows, row.head? = some 0 ∨ row.head? = some 1
  directions : (∃ row ∈ rows, row.head? = some 0) ↔ (Polyhedron ineqs).Nonempty ∧ ¬ Bornology.IsBounded (Polyhedron ineqs)
  vertices : (∀ row ∈ rows, row.head? ≠ some 0) → IsVertexList (normals ineqs) (sides ineqs) (rows.map rowPoint)
  lines : (∀ row ∈ rows, row.head? ≠ some 0) → ∃ lines : List (List Tok), lines.length = rows.length ∧ ead = lines.flatten ∧
    ∀ (i : ℕ) (line : List Tok), lines[i]? = some line → IsLine rows.length (Adjacent (Polyhedron ineqs) (rows.map rowPoint)) (i + 1) line

end Verif.CddV
