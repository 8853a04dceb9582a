import Verif.Empty.Props
import Mathlib.Tactic.NormNum
import Mathlib.Tactic.FinCases
import Mathlib.Data.Fin.VecNotation
import Mathlib.Algebra.BigOperators.Fin

/-!
# C86: examples, and a program that meets the contract
-/

namespace Verif.Empty

open scoped Classical in
/-- The contract of cdd can be met. -/
theorem cddOk_satisfiable : ∃ cdd, CddOk cdd := by
  refine ⟨fun F => if F.numRows ≠ F.rows.length then none else
    some (if (F.Solutions (F.numCols - 1)).Nonempty then ["begin", "primal_solution", "end"] else ["dual_direction"]), fun F h => if_pos h, ?_⟩
  intro F n h1 h2 _ _
  have e : F.numCols - 1 = n := by omega
  rw [if_neg (by simpa using h1), e]
  refine ⟨_, rfl, fun h => ?_, fun h _ => ?_⟩
  · rw [if_pos h]; simp
  · rw [if_neg (by rw [h]; simp)]; simp

/-- `x + y = 1`, `x ≥ 0`, `y ≥ 0`, the last two in a section of their own. -/
def exSegment (first : Bool) : Problem 2 := ⟨[(-1, ![1, 1])], some [1], some [1, 2], first⟩

theorem exSegment_ok (first : Bool) : (exSegment first).Ok := by
  refine ⟨?_, ?_, ?_⟩ <;> cases first <;> decide

theorem exSegment_nonempty (first : Bool) : (exSegment first).Solutions.Nonempty := by
  refine ⟨![1, 0], ?_, ?_, ?_⟩
  · intro r hr
    simp only [exSegment, List.mem_singleton] at hr
    subst hr
    simp
  · intro e he r hr
    simp only [exSegment, Option.getD_some, List.mem_singleton] at he
    subst he
    simp only [exSegment, Nat.sub_self, List.getElem?_cons_zero, Option.some.injEq] at hr
    subst hr
    simp
  · intro k _
    fin_cases k <;> simp

/-- The file. -/
example : (exSegment true).file = [.num 1, .num 3, .num (-1), .num 1, .num 1, .word "nonnegative", .num 2, .num 1, .num 2, .word "linearity", .num 1, .num 1] := by
  decide +kernel

/-- The file for cdd: four rows, announced as four; with the sections in the other order as two. -/
example : (exSegment false).lp = ⟨4, 3, [[-1, 1, 1], [1, -1, -1], [0, 1, 0], [0, 0, 1]], [0, 1, 1]⟩ ∧
    (exSegment true).lp = ⟨2, 3, [[-1, 1, 1], [1, -1, -1], [0, 1, 0], [0, 0, 1]], [0, 1, 1]⟩ := by decide +kernel

/-- The same segment is accepted in one order of the sections and ends the program in the other. -/
theorem c86_order_matters (cdd : LpFile → Option (List String)) (hc : CddOk cdd) :
    (exSegment true).Solutions = (exSegment false).Solutions ∧ checkEmpty cdd (exSegment false).file = some .done ∧
      checkEmpty cdd (exSegment true).file = some .exit1 :=
  ⟨rfl, (c86_decides cdd hc _ (exSegment_ok false) (Or.inl (by simp [exSegment])) (by simp [exSegment])).1 (exSegment_nonempty false),
    c86_nonnegative_first_exits cdd hc _ (exSegment_ok true) (by simp [exSegment]) (by norm_num) rfl rfl rfl⟩

/-- `x ≥ 1` and `x ≤ 0`: an empty problem that is found to be empty. -/
def exEmpty : Problem 1 := ⟨[(-1, ![1]), (0, ![-1])], none, none, false⟩

example (cdd : LpFile → Option (List String)) (hc : CddOk cdd) : checkEmpty cdd exEmpty.file = some (.thrown "0\n") := by
  refine (c86_decides cdd hc exEmpty ⟨by decide, by decide, by decide⟩ (Or.inl (by simp [exEmpty])) (by simp [exEmpty])).2 ?_ ?_
  · ext x
    simp only [Set.mem_empty_iff_false, iff_false]
    rintro ⟨h, -⟩
    have h1 := h (-1, ![1]) (by simp [exEmpty])
    have h2 := h (0, ![-1]) (by simp [exEmpty])
    simp at h1 h2
    linarith
  · ext x
    constructor
    · rintro ⟨h, -⟩
      have h1 := h (-1, ![1]) (by simp [exEmpty])
      have h2 := h (0, ![-1]) (by simp [exEmpty])
      simp at h1 h2
      funext k
      fin_cases k
      exact le_antisymm h2 h1
    · rintro rfl
      refine ⟨?_, ?_, ?_⟩ <;> intro a <;> simp [exEmpty]

/-- An equation listed twice in a problem with one row: the indices do not fit. -/
example (cdd : LpFile → Option (List String)) : checkEmpty cdd (Problem.file (n := 1) ⟨[(0, ![1])], some [1, 1], none, false⟩) = some .undefined :=
  c86_undefined cdd _ (Or.inr (Or.inl (by decide)))

end Verif.Empty
