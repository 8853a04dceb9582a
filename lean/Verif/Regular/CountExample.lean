import Verif.Regular.VertexList
import Verif.Regular.Contracts
import Verif.Brion.Example

/-!
# Example for C76

The triangle `x ≥ 0`, `y ≥ 0`, `x + 2 y ≤ 2`, with the tight inequalities as rays, is counted by a finishing run.
-/

namespace Verif.Regular

open Verif.Barvinok Verif.Barvinok.Spec Verif.ExpSubst Verif.Irrational Verif.Brion

/-- The inequalities. -/
def exIneqs : List (ℤ × Vec 2) := [(0, ![1, 0]), (0, ![0, 1]), (2, ![-1, -2])]

/-- The cones that the program triangulates. -/
def exNormal : List ((Fin 2 → ℚ) × List (Vec 2)) := (Triangle.cones.map (·.1)).map fun v => (v, computeTight exIneqs v [])

theorem exNormal_rays : NormalRays Triangle.a Triangle.b exNormal := by
  have ha : normals exIneqs = Triangle.a := by
    funext i k
    have h : ∀ (i : Fin 3) (k : Fin 2), normals exIneqs i k = Triangle.a i k := by intro i k; fin_cases i <;> fin_cases k <;> rfl
    exact h i k
  have hb : sides exIneqs = Triangle.b := by
    funext i
    have h : ∀ i : Fin 3, sides exIneqs i = Triangle.b i := by intro i; fin_cases i <;> rfl
    exact h i
  have h : NormalRays (N := 3) (normals exIneqs) (sides exIneqs) exNormal := normalRays_tight exIneqs (Triangle.cones.map Prod.fst)
  rw [ha, hb] at h
  exact h

/-- Counting with triangulation ends with four. -/
example (X : Smith.Xgcd) : ∃ (N' : Ntl 2) (dd : DD) (alg : RayAlg) (lindep : List (Vec 2) → List ℤ → Bool) (g : Rng) (lam : Vec 2),
    N'.Ok ∧ DDOk dd ∧ RayAlgOk alg ∧ LindepOk lindep ∧ g.Ok ∧
      triangulateAndCount N' X .dual (fun C => C.vertex) 1 2 exNormal 1
        (fun _ => triangulateCone dd alg lindep ⟨.cddlib, 10000, 0, false, none, true⟩ g 1) (fun _ => lam) = .ok 4 := by
  obtain ⟨N', hN, hR⟩ := reduces_satisfiable 2
  obtain ⟨dd, hdd⟩ := ddOk_satisfiable
  obtain ⟨alg, ha⟩ := rayAlgOk_satisfiable
  obtain ⟨lindep, hl⟩ := lindepOk_satisfiable (n := 2)
  obtain ⟨g, hg⟩ := rngOk_satisfiable
  have hlen : ∀ c ∈ exNormal, c.2.length = 2 := by decide +kernel
  obtain ⟨D, hD, h⟩ := c75_count_total N' hN (shortVectors_dim_le_four (by norm_num) N' hN hR) X (fun C => C.vertex) 1 le_rfl (by decide) 2 (by norm_num)
    Triangle.a Triangle.b Triangle.S Triangle.lattice exNormal (by
      have : exNormal.map (·.1) = Triangle.cones.map (·.1) := by decide +kernel
      rw [this]; exact Triangle.vertices) exNormal_rays
    (fun _ => triangulateCone dd alg lindep ⟨.cddlib, 10000, 0, false, none, true⟩ g 1)
    (fun _ => triangulateCone_ok dd hdd alg ha lindep hl _ (by norm_num) rfl g hg 1) 0 (by
      intro t _ c hc k
      refine ⟨[c.2], k, ?_, ?_⟩
      · show (if _ then _ else _) = _
        rw [if_pos ⟨rfl, (hlen c hc).symm⟩]
      · intro p hp
        rw [List.mem_singleton.1 hp]
        exact hlen c hc)
  obtain ⟨lam, hlam⟩ := hD 0 le_rfl
  exact ⟨N', dd, alg, lindep, g, lam, hN, hdd, ha, hl, hg, h (fun _ => lam) hlam 1 (by norm_num)⟩

end Verif.Regular
