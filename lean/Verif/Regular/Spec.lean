import Verif.Regular.Model
import Verif.Brion.Cones
import Mathlib.LinearAlgebra.FiniteDimensional.Defs

/-!
# Specification for the regular triangulations

Facets of a finitely generated cone, and what is expected of the libraries that enumerate them.
-/

namespace Verif.Regular

open Verif.Barvinok Verif.Barvinok.Spec Verif.Brion

variable {n : ℕ}

/-- **Specification.** The generators of `g` on the hyperplane orthogonal to `l`. -/
def zeros {M d : ℕ} (g : Fin M → Fin d → ℝ) (l : Fin d → ℝ) : Set (Fin M) := {i | ∑ k, l k * g i k = 0}

/-- **Specification.** `F` is the set of generators that lie on a face of the cone generated by `g`. -/
def IsFace {M d : ℕ} (g : Fin M → Fin d → ℝ) (F : Set (Fin M)) : Prop := ∃ l : Fin d → ℝ, (∀ i, 0 ≤ ∑ k, l k * g i k) ∧ F = zeros g l

/-- **Specification.** `F` is the set of generators that lie on a facet, that is, on a maximal proper face. -/
def IsFacet {M d : ℕ} (g : Fin M → Fin d → ℝ) (F : Set (Fin M)) : Prop :=
  IsFace g F ∧ F ≠ Set.univ ∧ ∀ F', IsFace g F' → F' ≠ Set.univ → F ⊆ F' → F' = F

/-- **Specification.** The incidence set of a row as a set of generators. -/
def DDRow.set (M : ℕ) (row : DDRow) : Set (Fin M) := {i | row.incident (i + 1) = true}

/-- **Specification.** Contract of cddlib: apart from the equations, the rows are the facets, each once. -/
def DDOk (dd : DD) : Prop :=
  ∀ (M d : ℕ) (g : Fin M → Fin d → ℚ),
    (((dd M d g).filter fun row => !row.equation).map (DDRow.set M)).Nodup ∧
      ∀ F, F ∈ ((dd M d g).filter fun row => !row.equation).map (DDRow.set M) ↔ IsFacet (fun i k => (g i k : ℝ)) F

/-- **Specification.** Contract of the ray algorithm of 4ti2 for a matrix whose left part is an identity matrix: the slack variables are non-negative and
determined by the other entries, they vanish on the generators of a facet, every facet is listed once; the second result is the dimension of the space of
equations. -/
def RayAlgOk (alg : RayAlg) : Prop :=
  ∀ (M d : ℕ) (g : Fin M → Fin d → ℤ),
    (∀ row ∈ (alg M d g).1, ∀ i : Fin M, 0 ≤ row i ∧ row i = -∑ k : Fin d, g i k * row (M + k)) ∧
      ((alg M d g).1.map fun row => {i : Fin M | row i = 0}).Nodup ∧
      (∀ F, F ∈ ((alg M d g).1.map fun row => {i : Fin M | row i = 0}) ↔ IsFacet (fun i k => (g i k : ℝ)) F) ∧
      (alg M d g).2 = Module.finrank ℝ (⨅ i, LinearMap.ker (fun_ fun k => (g i k : ℝ)) : Submodule ℝ (Fin d → ℝ))

/-- **Specification.** Contract of the rank test: the heights are a linear function of the rays. -/
def LindepOk (lindep : List (Vec n) → List ℤ → Bool) : Prop :=
  ∀ rays ws, lindep rays ws = true ↔ ∃ l : Fin n → ℝ, ∀ i : Fin rays.length, dot (rays.get i) l = (ws.getD i 0 : ℤ)

/-- **Specification.** The random generator stays in the range. -/
def Rng.Ok (g : Rng) : Prop := ∀ k lo hi, lo ≤ hi → lo ≤ g k lo hi ∧ g k lo hi ≤ hi

/-- **Specification.** The cone generated by a list of vectors. -/
def generated (L : List (Vec n)) : Set (Fin n → ℝ) := coneOf (fun i : Fin L.length => L.get i) Set.univ

/-- **Specification.** The vectors of the list span the space. -/
def Spans (L : List (Vec n)) : Prop := ∀ d : Fin n → ℝ, (∀ r ∈ L, dot r d = 0) → d = 0

/-- **Specification.** The matrix whose rows are the first `n` vectors of the list. -/
def listMat (c : List (Vec n)) : Mat n := fun i => c.getD i 0

/-- **Specification.** The lists of rays triangulate the cone `K`: each has `n` rays, and the simplicial cones generated by them triangulate `K`. -/
structure Triangulates (out : List (List (Vec n))) (K : Set (Fin n → ℝ)) : Prop where
  length : ∀ c ∈ out, c.length = n
  triangulation : Triangulation (out.map listMat) K

/-- **Specification.** The lists of rays subdivide the cone `K`: the cones are full-dimensional, cover `K`, stay in it, and their interiors do not meet. -/
structure Subdivides (out : List (List (Vec n))) (K : Set (Fin n → ℝ)) : Prop where
  spans : ∀ c ∈ out, Spans c
  covers : ∀ p, p ∈ K ↔ ∃ c ∈ out, p ∈ generated c
  disjoint : out.Pairwise fun c c' => interior (generated c) ∩ interior (generated c') = ∅

end Verif.Regular
