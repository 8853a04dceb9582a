import Verif.Brion.Vertices
import Verif.Brion.Duality

/-!
# Vertices and active inequalities
-/

namespace Verif.Brion

open Verif.Barvinok Verif.Barvinok.Spec Filter Topology

variable {n N : ℕ}

/-- Vertices are determined by the equations holding at them (converse of `extreme_of_active`). -/
theorem active_of_extreme (a : Fin N → Vec n) (b : Fin N → ℝ) (v : Fin n → ℝ) (hv : v ∈ (Poly a b).extremePoints ℝ)
    (l : Fin n → ℝ) (hl : ∀ i, dot (a i) v = b i → dot (a i) l = 0) : l = 0 := by
  have hev : ∀ q : Fin n → ℝ, (∀ i, dot (a i) v = b i → dot (a i) q = 0) → ∀ᶠ ε in 𝓝[>] (0 : ℝ), v + ε • q ∈ Poly a b := by
    intro q hq
    have : ∀ᶠ ε in 𝓝[>] (0 : ℝ), ∀ i, dot (a i) (v + ε • q) ≤ b i := by
      rw [eventually_all]
      intro i
      by_cases h : dot (a i) v = b i
      · refine Eventually.of_forall fun ε => ?_
        rw [dot_add', dot_smul', hq i h, mul_zero, add_zero, h]
      · have h' : b i - dot (a i) v ≠ 0 := sub_ne_zero.2 (Ne.symm h)
        filter_upwards [ev_pos_iff (b i - dot (a i) v) (-dot (a i) q) h'] with ε hε
        have := hε.1.2 (by have := lt_of_le_of_ne (hv.1 i) h; linarith)
        rw [dot_add', dot_smul']
        linarith
    exact this
  obtain ⟨ε, ⟨h1, h2⟩, h3⟩ := (((hev l hl).and (hev (-l) fun i hi => by
    have := hl i hi
    rw [show -l = (-1 : ℝ) • l by simp, dot_smul', this, mul_zero])).and self_mem_nhdsWithin).exists
  have hε : (0 : ℝ) < ε := h3
  have hseg : v ∈ openSegment ℝ (v + ε • l) (v + ε • -l) := by
    refine ⟨1 / 2, 1 / 2, by norm_num, by norm_num, by norm_num, ?_⟩
    funext k
    simp
    ring
  have e : v + ε • l = v := hv.2 h1 h2 hseg
  have : ε • l = 0 := by simpa using e
  exact (smul_eq_zero.1 this).resolve_left hε.ne'

/-- The vertices of a polyhedron are the points of it that are determined by the equations holding at them. -/
theorem extreme_iff (a : Fin N → Vec n) (b : Fin N → ℝ) (v : Fin n → ℝ) : v ∈ (Poly a b).extremePoints ℝ ↔
    v ∈ Poly a b ∧ ∀ l : Fin n → ℝ, (∀ i, dot (a i) v = b i → dot (a i) l = 0) → l = 0 :=
  ⟨fun h => ⟨h.1, fun l hl => active_of_extreme a b v h l hl⟩, fun h => extreme_of_active a b v h.1 h.2⟩

end Verif.Brion
