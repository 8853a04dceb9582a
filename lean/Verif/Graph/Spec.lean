import Verif.Graph.Model
import Mathlib.Combinatorics.SimpleGraph.Acyclic
import Mathlib.Combinatorics.SimpleGraph.Finite
import Mathlib.Combinatorics.SimpleGraph.Operations

/-!
What the adjacency lists mean: a Mathlib `SimpleGraph` on the vertices `0, …, n-1`.
-/

namespace Verif.Graph

/-- the pair is listed -/
def Listed (E : Edges) (u v : ℕ) : Prop := v ∈ E.getD u []

/-- the simple graph described by the lists -/
def graphOf (n : ℕ) (E : Edges) : SimpleGraph (Fin n) where
  Adj u v := u ≠ v ∧ (Listed E u v ∨ Listed E v u)
  symm := ⟨fun _ _ h => ⟨h.1.symm, h.2.symm⟩⟩
  loopless := ⟨fun _ h => h.1 rfl⟩

/-- The lists describe a simple graph on `n` vertices without redundancy: one list for each vertex, each edge is
listed once, under its smaller end; no loops. -/
structure Simple (n : ℕ) (E : Edges) : Prop where
  length : E.length = n
  order : ∀ u v, Listed E u v → u < v ∧ v < n
  nodup : ∀ u, (E.getD u []).Nodup

end Verif.Graph
