import Verif.Vrep.Model
import Verif.CddV.Spec
import Mathlib.Analysis.Convex.Hull

/-!
# Specification of the input by vertices and of cdd for cones
-/

namespace Verif.Vrep

open Verif.Barvinok Verif.Ti2 Verif.CddV

variable {n : ℕ}

/-- **Specification.** The points of the rows. -/
def Points (rows : List (List ℚ)) : Set (Fin n → ℝ) := {x | ∃ row ∈ rows, x = real (rowPoint row)}

/-- **Specification.** The polytope described by the rows: the convex hull of their points. -/
def Hull (rows : List (List ℚ)) : Set (Fin n → ℝ) := convexHull ℝ (Points rows)

/-- **Specification.** The rows describe points: `n + 1` entries, the first one positive. -/
def IsPoints (n : ℕ) (rows : List (List ℚ)) : Prop := ∀ row ∈ rows, ∃ q qs, row = q :: qs ∧ 0 < q ∧ qs.length = n

/-- **Specification.** No row is redundant: the points are different and none of them is in the convex hull of the others. -/
def Irredundant (n : ℕ) (rows : List (List ℚ)) : Prop :=
  (rows.map (rowPoint (n := n))).Nodup ∧ ∀ row ∈ rows, real (rowPoint (n := n) row) ∉ convexHull ℝ (Points rows \ {real (rowPoint row)})

/-- **Specification.** Contract of cddlib for points: redundancy is found; else there is a line for each point with the numbers of the points it is joined to by an
edge of the convex hull (cf. `Verif.CddV.IsLine`). -/
structure AdjacencyOk (n : ℕ) (rows : List (List ℚ)) (res : Option (List Tok)) : Prop where
  redundant : res = none ↔ ¬ Irredundant n rows
  lines : ∀ ead, res = some ead → ∃ lines : List (List Tok), lines.length = rows.length ∧ ead = lines.flatten ∧
    ∀ (i : ℕ) (line : List Tok), lines[i]? = some line → IsLine rows.length (Adjacent (Hull rows) (rows.map (rowPoint (n := n)))) (i + 1) line

/-- **Specification.** The row is a positive multiple of the vector, after a leading zero. -/
def Multiple (row : List ℚ) (r : Vec n) : Prop := ∃ c : ℚ, 0 < c ∧ row = 0 :: List.ofFn fun k => c * (r k : ℚ)

/-- **Specification.** Contract of cdd for the cone `a · x ≥ 0`: up to positive factors, the rows not marked are the extreme rays, each once, and the rows marked are a
basis of the lineality space. -/
def ConeCddOk (cdd : ConeCdd n) : Prop := ∀ A : List (Vec n), ∃ rays sub, IsRayList {y | ∀ a ∈ A, 0 ≤ Spec.dot a y} rays sub ∧
  List.Forall₂ Multiple (((cdd A).filter fun p => !p.1).map (·.2)) rays ∧ List.Forall₂ Multiple (((cdd A).filter fun p => p.1).map (·.2)) sub

end Verif.Vrep
