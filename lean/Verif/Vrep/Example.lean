import Verif.Vrep.More
import Verif.CddV.Example

/-!
# Examples for C89 and C90
-/

namespace Verif.Vrep

open Verif.Barvinok Verif.Barvinok.Spec Verif.Brion Verif.Ti2 Verif.Regular Verif.ExpSubst Verif.CddV

/-- The corners of the triangle `x ≥ 0`, `y ≥ 0`, `x + 2 y ≤ 2` meet the hypotheses of C89. -/
theorem ex_points_ok : IsPoints 2 exRows ∧ Irredundant 2 exRows ∧ AdjacencyOk 2 exRows (some exEad) :=
  ⟨(vrep_of_cdd ex_cddOk ex_bounded).1, (vrep_of_cdd ex_cddOk ex_bounded).2.2.1, (vrep_of_cdd ex_cddOk ex_bounded).2.2.2⟩

theorem ex_hull : Hull exRows = Polyhedron exIneqs := (vrep_of_cdd ex_cddOk ex_bounded).2.1

theorem ex_interior : (interior (Hull exRows : Set (Fin 2 → ℝ))).Nonempty := by
  refine ⟨![1 / 2, 1 / 4], mem_interior.2 ⟨{x | 0 < x 0 ∧ 0 < x 1 ∧ x 0 + 2 * x 1 < 2}, fun x hx => ?_, ?_, ?_⟩⟩
  · rw [ex_hull, ex_mem]
    exact ⟨hx.1.le, hx.2.1.le, hx.2.2.le⟩
  · have h1 : IsOpen {x : Fin 2 → ℝ | 0 < x 0} := isOpen_lt continuous_const (by fun_prop)
    have h2 : IsOpen {x : Fin 2 → ℝ | 0 < x 1} := isOpen_lt continuous_const (by fun_prop)
    have h3 : IsOpen {x : Fin 2 → ℝ | x 0 + 2 * x 1 < 2} := isOpen_lt (by fun_prop) continuous_const
    exact h1.inter (h2.inter h3)
  · constructor
    · simp
    · constructor
      · simp
      · norm_num

/-- The same cones as from the inequalities (`Verif.CddV`). -/
example : asLists (computeVertexConesFromVrep exRows (some exEad)) =
    some [([0, 0], [[1, 0], [0, 1]]), ([2, 0], [[-1, 0], [-2, 1]]), ([0, 1], [[0, -1], [2, -1]])] := by decide +kernel

/-- The integer points of the triangle. -/
theorem ex_lattice : IsLatticePoints (Hull exRows) [![0, 0], ![1, 0], ![2, 0], ![0, 1]] := by
  refine ⟨by decide, fun z => ?_⟩
  rw [ex_hull, ex_mem]
  constructor
  · intro h
    simp only [List.mem_cons, List.not_mem_nil, or_false] at h
    rcases h with rfl | rfl | rfl | rfl <;> norm_num
  · rintro ⟨h1, h2, h3⟩
    have h1' : 0 ≤ z 0 := by exact_mod_cast h1
    have h2' : 0 ≤ z 1 := by exact_mod_cast h2
    have h3' : z 0 + 2 * z 1 ≤ 2 := by exact_mod_cast h3
    have e : z = ![z 0, z 1] := by funext k; fin_cases k <;> rfl
    have h4 : z 1 ≤ 1 := by omega
    have h5 : z 0 ≤ 2 := by omega
    rw [e]
    generalize z 0 = a at *
    generalize z 1 = b at *
    interval_cases b <;> interval_cases a <;> first | omega | simp

/-- A point in the middle of a side is redundant, and the program stops. -/
example : ¬ Irredundant 2 [[1, 0, 0], [1, 2, 0], [1, 1, 0]] := by
  rintro ⟨-, h⟩
  refine h [1, 1, 0] (by simp) ?_
  have hm : real (rowPoint (n := 2) [1, 1, 0]) = (1 / 2 : ℝ) • real (rowPoint (n := 2) [1, 0, 0]) + (1 / 2 : ℝ) • real (rowPoint (n := 2) [1, 2, 0]) := by
    funext k
    fin_cases k <;> norm_num [real, rowPoint]
  have hp : ∀ row ∈ ([[1, 0, 0], [1, 2, 0]] : List (List ℚ)), real (rowPoint (n := 2) row) ∈
      convexHull ℝ (Points [[1, 0, 0], [1, 2, 0], [1, 1, 0]] \ {real (rowPoint (n := 2) [1, 1, 0])}) := by
    intro row hr
    refine subset_convexHull ℝ _ ⟨⟨row, ?_, rfl⟩, fun he => ?_⟩
    · simp only [List.mem_cons, List.not_mem_nil, or_false] at hr ⊢
      tauto
    · have := congrFun (Set.mem_singleton_iff.1 he) 0
      simp only [List.mem_cons, List.not_mem_nil, or_false] at hr
      rcases hr with rfl | rfl <;> norm_num [real, rowPoint] at this
  have := (convex_convexHull ℝ _) (hp [1, 0, 0] (by simp)) (hp [1, 2, 0] (by simp)) (a := 1 / 2) (b := 1 / 2) (by norm_num) (by norm_num) (by norm_num)
  rw [← hm] at this
  exact this

example : (match (computeVertexConesFromVrep [[1, 0, 0], [1, 2, 0], [1, 1, 0]] none : CddV.Outcome 2) with | .stop => true | _ => false) = true := by decide +kernel

/-! ## Dualization with cdd -/

/-- A row of cdd with a fraction. -/
example : List.ofFn (facetOf [0, 1 / 2, -3 / 4] : Vec 2) = [2, -3] := by decide +kernel

/-- The quarter plane generated by three vectors: the general case, with spanning rays. -/
theorem ex_spans : Spans ([![1, 0], ![0, 1], ![1, 1]] : List (Vec 2)) := by
  intro d hd
  have h0 := hd ![1, 0] (by simp)
  have h1 := hd ![0, 1] (by simp)
  simp [dot, Fin.sum_univ_two] at h0 h1
  funext k
  fin_cases k
  · exact h0
  · exact h1

example (cdd : ConeCdd 2) (hc : ConeCddOk cdd) : ∃ D, dualizeConeCdd cdd ⟨![0, 0], [![1, 0], ![0, 1], ![1, 1]], [], [], []⟩ = .ok D ∧
    D.facets = [![1, 0], ![0, 1], ![1, 1]] := by
  obtain ⟨D, h, -, h2, -⟩ := (c90_dualize cdd hc).1 ⟨![0, 0], [![1, 0], ![0, 1], ![1, 1]], [], [], []⟩ rfl rfl rfl ex_spans
  exact ⟨D, h, h2⟩

/-- One ray in the plane: the polar cone is a half plane, and the rays of the result do not generate it. -/
theorem c90_one_ray_violation (cdd : ConeCdd 2) (hc : ConeCddOk cdd) : ∃ D, dualizeConeCdd cdd ⟨![0, 0], [![1, 0]], [], [], []⟩ = .ok D ∧
    D.subspace = [] ∧ generated D.rays ≠ {y : Fin 2 → ℝ | y 0 ≤ 0} := by
  obtain ⟨D, h1, h2, h3⟩ := c90_lines_violation cdd hc ⟨![0, 0], [![1, 0]], [], [], []⟩ rfl rfl (by simp) (by
    intro h
    have := congrFun (h ![0, 1] (by intro v hv; rw [List.mem_singleton.1 hv]; simp [dot, Fin.sum_univ_two])) 1
    simp at this)
  refine ⟨D, h1, h2, fun h => h3 ?_⟩
  rw [h]
  ext y
  simp [dot, Fin.sum_univ_two]

end Verif.Vrep
