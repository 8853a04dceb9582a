import Verif.Ti2.Primal
import Verif.Brion.Example

/-!
# Examples for C83 and C84
-/

namespace Verif.Ti2

open Verif.Barvinok Verif.Barvinok.Spec Verif.Brion Verif.Regular Verif.ExpSubst

/-- The contract of the ray algorithm can be met. -/
example : ∃ alg : Rays, RaysOk alg := raysOk_satisfiable

/-! ## A segment, computed -/

/-- `x ≥ 0`, `5 - 2 x ≥ 0`. -/
def segment : List (ℤ × Vec 1) := [(0, ![1]), (5, ![-2])]

/-- The rays of its homogenization. -/
def segmentRays : List (Fin (segment.length + (1 + 1)) → ℤ) := [fun i => [0, 5, 1, 0].getD i 0, fun i => [5, 0, 2, 5].getD i 0]

/-- The loop over the rays of the homogenization: two vertices, `0` and `5/2`, in reverse order, with their facets. -/
example : (segmentRays.foldl (vertexStep segment) (false, [])).1 = false ∧
    ((segmentRays.foldl (vertexStep segment) (false, [])).2.map fun C => (C.vertex 0, C.facets.map fun f => f 0)) = [(5 / 2, [1]), (0, [-1])] := by
  decide +kernel

/-! ## A quadrant and a triangle -/

/-- `x ≥ 0`, `y ≥ 0`. -/
def quadrant : List (ℤ × Vec 2) := [(0, ![1, 0]), (0, ![0, 1])]

/-- `x ≥ 0`, `y ≥ 0`, `3 - 2 x - 2 y ≥ 0`. -/
def triangle : List (ℤ × Vec 2) := (3, ![-2, -2]) :: quadrant

theorem quadrant_noLine : ∀ y : Fin 2 → ℝ, (∀ q ∈ quadrant, dot q.2 y = 0) → y = 0 := by
  intro y hy
  have h1 := hy (0, ![1, 0]) (by simp [quadrant])
  have h2 := hy (0, ![0, 1]) (by simp [quadrant])
  simp [dot] at h1 h2
  funext k
  fin_cases k
  · exact h1
  · exact h2

theorem triangle_bounded : ∀ y : Fin 2 → ℝ, (∀ q ∈ triangle, 0 ≤ dot q.2 y) → y = 0 := by
  intro y hy
  have h1 := hy (0, ![1, 0]) (by simp [triangle, quadrant])
  have h2 := hy (0, ![0, 1]) (by simp [triangle, quadrant])
  have h3 := hy (3, ![-2, -2]) (by simp [triangle])
  simp [dot] at h1 h2 h3
  funext k
  fin_cases k
  · show y 0 = 0
    linarith
  · show y 1 = 0
    linarith

/-- The quadrant is reported as unbounded, with one vertex. -/
example (alg : Rays) (ha : RaysOk alg) (N : Ntl 2) (X : Smith.Xgcd) (irr : Cone 2 → Fin 2 → ℚ) (tries : ℕ)
    (tris : ℕ → List (Vec 2) → ℕ → Except Fail (List (List (Vec 2)) × ℕ)) (guesses : ℕ → Vec 2) :
    countDual alg N X irr 1 2 quadrant tries tris guesses = .unbounded := by
  refine (c83_report_partial (m := 1) alg ha N X irr 1 2 quadrant quadrant_noLine ⟨0, ?_⟩ tries tris guesses).2 ?_
  · intro q hq
    simp [quadrant] at hq
    rcases hq with rfl | rfl <;> simp [dot]
  · refine unbounded_of_recession (ineqs := quadrant) (y := ![1, 0]) ⟨?_, ?_⟩ (x := 0) ?_
    · intro h
      have := congrFun h 0
      simp at this
    · intro q hq
      simp [quadrant] at hq
      rcases hq with rfl | rfl <;> simp [dot]
    · intro q hq
      simp [quadrant] at hq
      rcases hq with rfl | rfl <;> simp [dot]

/-- The integer points of the triangle. -/
def trianglePoints : List (Vec 2) := [![0, 0], ![1, 0], ![0, 1]]

theorem trianglePoints_mem (z : Vec 2) : z ∈ trianglePoints ↔ ∀ q ∈ triangle, 0 ≤ q.1 + ∑ k, q.2 k * z k := by
  constructor
  · intro h q hq
    simp [trianglePoints] at h
    simp [triangle, quadrant] at hq
    rcases h with rfl | rfl | rfl <;> rcases hq with rfl | rfl | rfl <;> simp [Fin.sum_univ_two]
  · intro h
    have h1 := h (0, ![1, 0]) (by simp [triangle, quadrant])
    have h2 := h (0, ![0, 1]) (by simp [triangle, quadrant])
    have h3 := h (3, ![-2, -2]) (by simp [triangle])
    simp [Fin.sum_univ_two] at h1 h2 h3
    have hz : z = ![z 0, z 1] := by funext k; fin_cases k <;> rfl
    have : (z 0 = 0 ∧ z 1 = 0) ∨ (z 0 = 1 ∧ z 1 = 0) ∨ (z 0 = 0 ∧ z 1 = 1) := by omega
    rw [hz]
    rcases this with ⟨a, b⟩ | ⟨a, b⟩ | ⟨a, b⟩ <;> rw [a, b] <;> simp [trianglePoints]

/-- The count of the triangle is 3 whenever there is one. -/
example (alg : Rays) (ha : RaysOk alg) (N : Ntl 2) (hN : N.Ok) (X : Smith.Xgcd) (irr : Cone 2 → Fin 2 → ℚ)
    (dd : DD) (hdd : DDOk dd) (ralg : RayAlg) (hra : RayAlgOk ralg) (lindep : List (Vec 2) → List ℤ → Bool) (hl : LindepOk lindep)
    (P : TriParams 2) (hM : 1 ≤ P.maxHeight) (hp : P.prescribed = none) (g : ℕ → Rng) (hg : ∀ t, (g t).Ok) (tfuel tries : ℕ)
    (guesses : ℕ → Vec 2) (r : ℤ)
    (h : countDual alg N X irr 1 2 triangle tries (fun t => triangulateCone dd ralg lindep P (g t) tfuel) guesses = .number r) : r = 3 :=
  c83_count (m := 1) alg ha N hN X irr 1 (by norm_num) (by decide) 2 (by norm_num) triangle trianglePoints (by decide) trianglePoints_mem
    dd hdd ralg hra lindep hl P hM hp g hg tfuel tries guesses r h

/-- The vertices of the triangle are found: it has a cone at `(3/2, 0)`. -/
example (alg : Rays) (ha : RaysOk alg) : ∃ cones, vertexCones alg triangle = .ok (false, cones) ∧ ∃ C ∈ cones, C.vertex = ![3 / 2, 0] := by
  have hnl : ∀ y : Fin 2 → ℝ, (∀ q ∈ triangle, dot q.2 y = 0) → y = 0 := fun y hy => triangle_bounded y fun q hq => (hy q hq).ge
  obtain ⟨⟨unbounded, cones⟩, hv⟩ := (c83_assert alg ha triangle).2 hnl
  have hf : unbounded = false := by
    by_contra h
    obtain ⟨y, hy, hq⟩ := (c83_flag alg ha triangle unbounded cones hv).1 (by simpa using h)
    exact hy (triangle_bounded y hq)
  subst hf
  refine ⟨cones, hv, ?_⟩
  obtain ⟨-, hx, -⟩ := c83_cones alg ha triangle false cones hv
  obtain ⟨C, hC, e⟩ := (hx ![3 / 2, 0]).2 (by
    rw [polyhedron_eq, extreme_iff, ← polyhedron_eq]
    refine ⟨fun q hq => ?_, fun l hl => ?_⟩
    · simp [triangle, quadrant] at hq
      rcases hq with rfl | rfl | rfl <;> simp [dot] <;> norm_num
    · have h1 := hl (⟨0, by decide⟩ : Fin triangle.length) (by rw [dot_normals]; simp [triangle, dot, sides]; norm_num)
      have h2 := hl (⟨2, by decide⟩ : Fin triangle.length) (by rw [dot_normals]; simp [triangle, quadrant, dot, sides])
      rw [dot_normals] at h1 h2
      simp [triangle, quadrant, dot] at h1 h2
      funext k
      fin_cases k
      · show l 0 = 0
        linarith
      · exact h2)
  refine ⟨C, hC, ?_⟩
  funext k
  have := congrFun e k
  fin_cases k
  · simp at this ⊢
    have h1 : ((3 / 2 : ℚ) : ℝ) = (C.vertex 0 : ℝ) := by push_cast; exact this
    exact_mod_cast h1.symm
  · simp at this ⊢
    exact_mod_cast this.symm

/-! ## Dualization -/

/-- The cone over a square. -/
def squareCone : GCone 3 := ⟨0, [![1, 1, 1], ![-1, 1, 1], ![1, -1, 1], ![-1, -1, 1]], [], [], []⟩

/-- It is dualized by 4ti2, and has no lines in its dual. -/
example (alg : Rays) (ha : RaysOk alg) : ∃ D, dualizeCone alg squareCone = .ok D ∧ D.subspace = [] := by
  obtain ⟨D, hD⟩ := (c84_ends_partial alg squareCone rfl rfl).2 fun h => absurd h.1 (by decide)
  refine ⟨D, hD, (c84_subspace alg ha squareCone D rfl rfl hD).2 fun y hy => ?_⟩
  have h1 := hy ![1, 1, 1] (by simp [squareCone])
  have h2 := hy ![-1, 1, 1] (by simp [squareCone])
  have h3 := hy ![1, -1, 1] (by simp [squareCone])
  simp [dot, Fin.sum_univ_three] at h1 h2 h3
  funext k
  fin_cases k
  · show y 0 = 0; linarith
  · show y 1 = 0; linarith
  · show y 2 = 0; linarith

/-- A simplicial cone, computed. -/
def wedge : GCone 2 := ⟨0, [![1, 0], ![1, 2]], [], [], []⟩

example (alg : Rays) : ∃ D, dualizeCone alg wedge = .ok D ∧ D.facets = [![1, 0], ![1, 2]] := by
  obtain ⟨D, hD⟩ := (c84_ends_partial alg wedge rfl rfl).2 (by
    rintro ⟨-, y, hy, hz⟩
    apply hy
    have h1 := hz ![1, 0] (by simp [wedge])
    have h2 := hz ![1, 2] (by simp [wedge])
    simp [dot] at h1 h2
    funext k
    fin_cases k
    · exact h1
    · show y 1 = 0; linarith)
  refine ⟨D, hD, ?_⟩
  obtain ⟨alg', ha'⟩ := raysOk_satisfiable
  have hD' : dualizeCone alg' wedge = .ok D := by
    unfold dualizeCone at hD ⊢
    rw [if_neg (by simp [wedge]), if_pos (show wedge.rays.length = 2 from rfl)] at hD ⊢
    exact hD
  exact (c84_dualize alg' ha' wedge D rfl rfl hD').2.1

/-- **C84, violation.** Two dependent rays in the plane: the polar cone is a half-line's half-plane, and the program fails an assertion. -/
theorem c84_dependent_violation (alg : Rays) : ∃ e, dualizeCone alg (⟨0, [![1, 0], ![2, 0]], [], [], []⟩ : GCone 2) = .error e := by
  cases h : dualizeCone alg (⟨0, [![1, 0], ![2, 0]], [], [], []⟩ : GCone 2) with
  | error e => exact ⟨e, rfl⟩
  | ok D =>
    exfalso
    refine (c84_ends_partial alg _ rfl rfl).1 ⟨D, h⟩ ⟨rfl, ![0, 1], ?_, ?_⟩
    · intro h
      have := congrFun h 1
      simp at this
    · intro r hr
      simp at hr
      rcases hr with rfl | rfl <;> simp [dot]

end Verif.Ti2
