import Verif.Whole.Contracts
import Mathlib.Tactic.FinCases

/-!
# C91: a file with an equation and nonnegative variables
-/

namespace Verif.Whole

open Verif.Barvinok Verif.Barvinok.Spec Verif.Ti2 Verif.Brion Verif.ExpSubst Verif.Files Verif.Preprocess Latte.Decimal

/-- The triangle `x + y + z = 2`, `x, y, z ≥ 0`, with a superfluous inequality `x ≤ 5`. -/
def exP : Empty.Problem 3 where
  rows := [(2, ![-1, -1, -1]), (5, ![-1, 0, 0])]
  linearity := some [1]
  nonnegative := some [1, 2, 3]
  nonnegFirst := false

theorem ex_text : text exP = "2 4 \n2 -1 -1 -1 \n5 -1 0 0 \nlinearity 1 1 \nnonnegative 3 1 2 3 \n".toList := by decide +kernel

theorem ex_ok : exP.Ok := ⟨by decide, by decide, by decide⟩
theorem ex_small : Small exP := ⟨by decide, by decide, by decide⟩

theorem ex_directions : exP.Directions = {0} := by
  ext x
  constructor
  · rintro ⟨h1, h2, h3⟩
    have e := h2 1 (by simp [exP]) (2, ![-1, -1, -1]) rfl
    have p0 := h3 0 (by simp [exP])
    have p1 := h3 1 (by simp [exP])
    have p2 := h3 2 (by simp [exP])
    simp [Fin.sum_univ_three] at e
    show x = 0
    funext k
    fin_cases k
    · show x 0 = 0; linarith
    · show x 1 = 0; linarith
    · show x 2 = 0; linarith
  · intro hx
    have : x = 0 := hx
    subst this
    exact ⟨by simp, by simp, by simp⟩

theorem ex_points : integerPoints exP = ↑((Fintype.piFinset fun _ : Fin 3 => Finset.Icc (0 : ℤ) 2).filter fun z => z 0 + z 1 + z 2 = 2) := by
  ext z
  simp only [Finset.coe_filter, Fintype.mem_piFinset, Finset.mem_Icc, Set.mem_ofPred_eq, integerPoints, exP]
  constructor
  · rintro ⟨h1, h2, h3⟩
    have e := h2 1 (by simp) (2, ![-1, -1, -1]) rfl
    have p0 := h3 0 (by simp)
    have p1 := h3 1 (by simp)
    have p2 := h3 2 (by simp)
    simp [Fin.sum_univ_three] at e
    refine ⟨fun k => ?_, by omega⟩
    fin_cases k
    · show 0 ≤ z 0 ∧ z 0 ≤ 2; omega
    · show 0 ≤ z 1 ∧ z 1 ≤ 2; omega
    · show 0 ≤ z 2 ∧ z 2 ≤ 2; omega
  · rintro ⟨h1, h2⟩
    have p0 := h1 0
    have p1 := h1 1
    have p2 := h1 2
    refine ⟨fun r hr => ?_, fun e he r hr => ?_, fun k _ => (h1 k).1⟩
    · simp only [List.mem_cons, List.not_mem_nil, or_false] at hr
      rcases hr with rfl | rfl <;> simp [Fin.sum_univ_three] <;> omega
    · simp only [Option.getD_some, List.mem_singleton] at he
      subst he
      simp at hr
      subst hr
      simp [Fin.sum_univ_three]
      omega

/-- Whatever tools are used and whatever the random numbers are: a number reported for the file is 6. -/
example {T : Tools} (hT : T.Ok) {L : Limits} (hdet : L.maxDet ≠ 0) (hmax : L.maxDet ≤ Piped.intMax) (hfuel : L.maxDet < L.fuel) {r : ℤ}
    (hr : countFile T L "2 4 \n2 -1 -1 -1 \n5 -1 0 0 \nlinearity 1 1 \nnonnegative 3 1 2 3 \n".toList = .number r) : r = 6 := by
  rw [← ex_text] at hr
  rw [c91_count hT hdet hmax hfuel exP ex_ok ex_small (Or.inl (by simp [exP])) rfl ex_directions hr, ex_points, Set.ncard_coe_finset]
  decide +kernel

/-- And there are tools and random numbers with which it is reported. -/
example : ∃ (T : Tools) (L : Limits), T.Ok ∧ countFile T L "2 4 \n2 -1 -1 -1 \n5 -1 0 0 \nlinearity 1 1 \nnonnegative 3 1 2 3 \n".toList = .number 6 := by
  obtain ⟨T, hT, hsv, htri⟩ := tools_satisfiable
  obtain ⟨d, N, D, ⟨lam, hl⟩, h⟩ := c91_total hT hsv htri 1 2 le_rfl (by decide) (by decide) (by decide) exP ex_ok ex_small (by simp [exP]) rfl ex_directions 0
  refine ⟨{ T with guess := fun d' _ => if e : d' = d then e ▸ lam else 0 }, ⟨1, 2, N, 1⟩, ⟨hT.lp, hT.canonicalize, hT.vertices, hT.ntl, hT.triangulate⟩, ?_⟩
  rw [← ex_text, h _ N 1 (by simpa using hl) zero_lt_one le_rfl, ex_points, Set.ncard_coe_finset]
  congr 1

end Verif.Whole
