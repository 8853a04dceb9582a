import Verif.Preprocess.Main
import Mathlib.Tactic.IntervalCases

/-!
# C67: examples and counterexamples
-/

namespace Verif.Preprocess

open Matrix

namespace Ex

/-- `2x + 4y = 6`, `x ≥ 0`, `y ≥ 0`: the points (3,0) and (1,1). -/
def eqs : Fin 1 → Row 2 := ![⟨6, ![-2, -4]⟩]
def ineqs : List (Row 2) := [⟨0, ![1, 0]⟩, ⟨0, ![0, 1]⟩]

theorem eqs_independent : Independent eqs := by
  refine Fintype.linearIndependent_iff.2 fun g hg i => ?_
  have := congrFun hg 0
  simp [eqs] at this
  rw [Fin.fin_one_eq_zero i]; exact this

theorem eqs_solvable : IntSolvable eqs := ⟨![3, 0], by simp [eqs, Row.eval]⟩

/-- Checks that the returned inequalities hold at the origin of the new coordinates. -/
def zeroFeasible {n : ℕ} : Outcome n → Bool
  | .reduced _ out _ _ _ => out.all fun r => decide (0 ≤ r.b)
  | _ => false

theorem zeroFeasible_spec {n : ℕ} {o : Outcome n} (h : zeroFeasible o = true) :
    ∃ (d : ℕ) (out : List (Row d)) (p : Fin n → ℤ) (B : Fin d → Fin n → ℤ) (c : Fin d → ℤ), o = .reduced d out p B c ∧ (feasible out).Nonempty := by
  cases o with
  | reduced d out p B c =>
    refine ⟨d, out, p, B, c, rfl, 0, fun r hr => ?_⟩
    simp only [zeroFeasible, List.all_eq_true, decide_eq_true_eq] at h
    simpa [Row.eval] using h r hr
  | _ => simp [zeroFeasible] at h

/-- The hypotheses of `c67_lattice_points` are met: the elimination succeeds on this system. -/
theorem run_reduced : ∃ (d : ℕ) (out : List (Row d)) (p : Fin 2 → ℤ) (B : Fin d → Fin 2 → ℤ) (c : Fin d → ℤ),
    preprocessProblem 10 eqs ineqs ![1, 1] 1 = .reduced d out p B c ∧ (feasible out).Nonempty :=
  zeroFeasible_spec (by decide +kernel)

theorem solutions_eq : solutions eqs ineqs 1 = {![3, 0], ![1, 1]} := by
  ext x
  have hx : x = ![x 0, x 1] := by funext k; fin_cases k <;> rfl
  simp only [solutions, Set.mem_ofPred_eq, eqs, ineqs, Row.eval, Set.mem_insert_iff, Set.mem_singleton_iff]
  simp
  constructor
  · rintro ⟨h1, h2, h3⟩
    have h4 : x 1 ≤ 1 := by omega
    rw [hx]
    have h5 : x 0 = 3 - 2 * x 1 := by omega
    rw [h5]
    interval_cases x 1 <;> simp
  · rintro (rfl | rfl) <;> simp

/-- Boolean test for an outcome that reports `k` points. -/
def isCount {n : ℕ} (k : ℕ) : Outcome n → Bool
  | .count k' => decide (k' = k)
  | _ => false

theorem isCount_spec {n k : ℕ} {o : Outcome n} (h : isCount k o = true) : o = .count k := by
  cases o <;> simp_all [isCount]

/-- An integrally empty system with independent equations: `2x + 4y = 5`; zero is reported, and it is the number of points. -/
def eqsOdd : Fin 1 → Row 2 := ![⟨5, ![-2, -4]⟩]

theorem odd_count : preprocessProblem 10 eqsOdd ineqs ![1, 1] 1 = .count 0 := isCount_spec (by decide +kernel)

theorem odd_independent : Independent eqsOdd := by
  refine Fintype.linearIndependent_iff.2 fun g hg i => ?_
  have := congrFun hg 0
  simp [eqsOdd] at this
  rw [Fin.fin_one_eq_zero i]; exact this

theorem odd_empty : solutions eqsOdd ineqs 1 = ∅ := by
  ext x
  simp only [solutions, Set.mem_ofPred_eq, eqsOdd, Row.eval, Set.mem_empty_iff_false, iff_false, not_and]
  intro h
  exfalso
  have := h 0
  simp at this
  omega

example : (solutions eqsOdd ineqs 1).ncard = 0 :=
  c67_reported_count (by simp [ineqs]) (by decide) (Or.inr ⟨odd_independent, rfl⟩) (by rw [odd_empty]; exact Set.finite_empty) odd_count

/-- `2x = 1` written twice. -/
def twice : Fin 2 → Row 2 := ![⟨-1, ![2, 0]⟩, ⟨-1, ![2, 0]⟩]
/-- `0 ≤ y ≤ 1`. -/
def strip : List (Row 2) := [⟨0, ![0, 1]⟩, ⟨1, ![0, -1]⟩]

/-- **Violation: dependent equations.** `2x = 1` written twice, `0 ≤ y ≤ 1`: there is no integer point, but the elimination returns a feasible system
(the test for integral solvability is skipped when the determinant is zero). -/
theorem c67_violated_dependent : ∃ (eqs : Fin 2 → Row 2) (ineqs : List (Row 2)) (d : ℕ) (out : List (Row d)) (p : Fin 2 → ℤ)
    (B : Fin d → Fin 2 → ℤ) (c : Fin d → ℤ), ineqs ≠ [] ∧ solutions eqs ineqs 1 = ∅ ∧ (∃ N, ∀ fuel, N ≤ fuel →
      preprocessProblem fuel eqs ineqs 0 1 = .reduced d out p B c) ∧ (feasible out).Nonempty := by
  have hi : strip ≠ [] := by simp [strip]
  obtain ⟨d, out, p, B, c, h, hne⟩ := zeroFeasible_spec (o := preprocessProblem 10 twice strip 0 1) (by decide +kernel)
  refine ⟨twice, strip, d, out, p, B, c, hi, ?_, ⟨10, fun fuel hf => ?_⟩, hne⟩
  · ext x
    simp only [solutions, Set.mem_ofPred_eq, Row.eval, Set.mem_empty_iff_false, iff_false, not_and]
    intro h
    exfalso
    have := h 0
    simp [twice] at this
    omega
  · rw [preprocess_cases hi le_rfl] at h ⊢
    split at h
    · simp at h
    · rename_i s hs
      have := hermiteLoop_mono 10 _ s hs (fuel - 10)
      rw [show 10 + (fuel - 10) = fuel by omega] at this
      have h2 : ihermite fuel (matOf twice) (fun j => (twice j).b) = some s := this
      rw [h2]
      exact h

/-- **Violation: dilation.** `2x = 1`, `0 ≤ y ≤ 1` dilated by two is `x = 1`, `0 ≤ y ≤ 2` with three integer points, but zero is reported. -/
theorem c67_violated_dilation : ∃ (eqs : Fin 1 → Row 2) (ineqs : List (Row 2)), ineqs ≠ [] ∧ Independent eqs ∧
    (solutions eqs ineqs 2) = {![1, 0], ![1, 1], ![1, 2]} ∧ preprocessProblem 10 eqs ineqs 0 2 = .count 0 := by
  refine ⟨![⟨-1, ![2, 0]⟩], [⟨0, ![0, 1]⟩, ⟨1, ![0, -1]⟩], by simp, ?_, ?_, isCount_spec (by decide +kernel)⟩
  · refine Fintype.linearIndependent_iff.2 fun g hg i => ?_
    have := congrFun hg 0
    simp at this
    rw [Fin.fin_one_eq_zero i]; exact this
  · ext x
    have hx : x = ![x 0, x 1] := by funext k; fin_cases k <;> rfl
    simp only [solutions, Set.mem_ofPred_eq, Row.eval, Set.mem_insert_iff, Set.mem_singleton_iff]
    simp
    constructor
    · rintro ⟨h1, h2, h3⟩
      have h4 : x 0 = 1 := by omega
      have h5 : x 1 ≤ 2 := by omega
      rw [hx, h4]
      interval_cases x 1 <;> simp
    · rintro (rfl | rfl | rfl) <;> simp

/-- **Violation: a single point.** `x = 1`, `x ≥ 0` has one integer point, zero is reported (for every amount of fuel that suffices). -/
theorem c67_violated_point_example : ∃ (eqs : Fin 1 → Row 1) (ineqs : List (Row 1)), ineqs ≠ [] ∧ Independent eqs ∧
    solutions eqs ineqs 1 = {![1]} ∧ preprocessProblem 10 eqs ineqs 0 1 = .count 0 := by
  refine ⟨![⟨-1, ![1]⟩], [⟨0, ![1]⟩], by simp, ?_, ?_, isCount_spec (by decide +kernel)⟩
  · refine Fintype.linearIndependent_iff.2 fun g hg i => ?_
    have := congrFun hg 0
    simp at this
    rw [Fin.fin_one_eq_zero i]; exact this
  · ext x
    have hx : x = ![x 0] := by funext k; fin_cases k; rfl
    simp only [solutions, Set.mem_ofPred_eq, Row.eval, Set.mem_singleton_iff]
    simp
    constructor
    · rintro ⟨h1, h2⟩
      rw [hx, show x 0 = 1 by omega]
    · rintro rfl; simp

/-- **Violation: dilation of a single point.** Without inequalities the dilation is not looked at: `2x = 1` dilated by two is `x = 1`. -/
theorem c67_violated_point_dilation : ∃ eqs : Fin 1 → Row 1, Independent eqs ∧ (solutions eqs [] 2).ncard = 1 ∧
    ∀ fuel cost, preprocessProblem fuel eqs [] cost 2 = .count 0 := by
  have hi : Independent (![⟨-1, ![2]⟩] : Fin 1 → Row 1) := by
    refine Fintype.linearIndependent_iff.2 fun g hg i => ?_
    have := congrFun hg 0
    simp at this
    rw [Fin.fin_one_eq_zero i]; exact this
  refine ⟨![⟨-1, ![2]⟩], hi, ?_, ?_⟩
  · rw [Set.ncard_eq_one]
    refine ⟨![1], ?_⟩
    ext x
    have hx : x = ![x 0] := by funext k; fin_cases k; rfl
    simp only [solutions, Set.mem_ofPred_eq, Row.eval, Set.mem_singleton_iff]
    simp
    constructor
    · intro h1
      rw [hx, show x 0 = 1 by omega]
    · rintro rfl; simp
  · intro fuel cost
    rw [c67_no_inequalities cost 2 hi]
    congr 1
    rw [Set.ncard_eq_zero (Set.toFinite _ |>.subset (s := {![0]}) ?_)]
    · ext x
      simp only [solutions, Set.mem_ofPred_eq, Row.eval, Set.mem_empty_iff_false, iff_false, not_and]
      intro h
      exfalso
      have := h 0
      simp at this
      omega
    · intro x hx
      exfalso
      have := hx.1 0
      simp [Row.eval] at this
      omega

end Ex

end Verif.Preprocess
