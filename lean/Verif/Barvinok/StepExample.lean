import Verif.Barvinok.Props

/-!
# Examples for C16 and C17

The theorems on one step and on the whole recursion, applied to the cone with rays (1,0), (1,2) and to its run.
-/

namespace Verif.Barvinok

/-- The hypotheses of `step_exact` are met: the step delivers the vector (1,1). -/
example : barvinokStep ntl2 exCone = some (![1, 1], childrenOf exCone ![1, 1]) := by
  have h : chooseOmega ntl2 exCone = some ![1, 1] := by decide +kernel
  unfold barvinokStep; rw [h]

/-- The children delivered for the example cone, as `step_exact` describes them. -/
example (i : Fin 2) (c : Cone 2) (h : childrenOf exCone ![1, 1] i = some c) :
    c.rays = exCone.rays.updateRow i ![1, 1] ∧ |c.determinant| < |exCone.determinant| := by
  have hz : chooseOmega ntl2 exCone = some ![1, 1] := by decide +kernel
  have hs : barvinokStep ntl2 exCone = some (![1, 1], childrenOf exCone ![1, 1]) := by
    unfold barvinokStep; rw [hz]
  have := (step_exact ntl2_ok exCone_wf hs).2.1 i c h
  exact ⟨this.1, this.2.2.2⟩

/-- The depth bound and the description of the delivered cones, for the run `exRun`. -/
example : ∃ out : List (Cone 2), out.length = 2 ∧ ∀ D ∈ out, (D.rays.det = 1 ∨ D.rays.det = -1) ∧ D.vertex = exCone.vertex := by
  obtain ⟨c0, c1, h, -, -⟩ := exRun
  refine ⟨[c0, c1], rfl, fun D hD => ⟨dfs_unimodular exParams ntl2_ok rfl exCone exCone_wf 0 0 h D hD, ?_⟩⟩
  obtain ⟨-, new, e, hn⟩ := dfs_terminates_bounded exParams ntl2_ok exCone exCone_wf 0 [] 0 h
  simp only [List.nil_append] at e
  subst e
  exact (hn D hD).2.2.2.1

end Verif.Barvinok
