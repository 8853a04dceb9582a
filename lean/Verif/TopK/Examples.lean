import Verif.TopK.Ends

/-!
# C81: concrete cases, and what goes wrong
-/

namespace Verif.TopK

/-- The value of entry `i` at `t`, if the call returned. -/
def entry (r : Except Fail Obj) (i : ℕ) (t : ℤ) : Option ℚ :=
  match r with
  | .error _ => none
  | .ok o => (o.getCoeffNminusK i).map fun q => q t

/-- Some environment. -/
noncomputable def demoEnv : Env := ⟨fun n => (Barvinok.reduces_satisfiable n).choose, 20, fun _ a k => (a : ℤ) ^ k⟩

theorem demoEnv_ok (n : ℕ) : (demoEnv.ntl n).Ok := (Barvinok.reduces_satisfiable n).choose_spec.1

/-- Weights 1, 2, 6 and all three coefficients (gcds 1, 2 and 6; Barvinok's algorithm in dimension 1 and 2): the hypotheses of the theorems are met. -/
example (b topK : Bool) : ∃ env : Env, (∀ n, (env.ntl n).Ok) ∧ ∃ o, (fresh ![1, 2, 6] b).coeff env topK (2 : ℕ) = .ok o :=
  c81_runs_exist ![1, 2, 6] (by decide) (fun d hd => Nat.dvd_one.1 (hd 0)) b topK 2 le_rfl

/-- There are `t + 1` ways for weights 1, 1: the first coefficient is 1 at every `t`. -/
example : entry ((fresh ![1, 1] true).coeffTopK demoEnv 0) 0 5 = some 1 := by decide +kernel

/-- **C81, violated by a second call**: `coeffsNminusk.resize(k+1)` (TopKnapsack.cpp:247) keeps the old answer and `packageAnswer` adds to it. -/
theorem c81_second_call : ∃ o, (fresh ![1, 1] true).coeffTopK demoEnv 0 = .ok o ∧ entry (.ok o) 0 5 = some 1 ∧ entry (o.coeffTopK demoEnv 0) 0 5 = some 2 ∧
    ∀ e, IsQuasi 1 e (fun t => (ways ![1, 1] t : ℚ)) → e 1 5 = 1 := by
  cases h : (fresh ![1, 1] true).coeffTopK demoEnv 0 with
  | error e =>
    have : entry ((fresh ![1, 1] true).coeffTopK demoEnv 0) 0 5 = some 1 := by decide +kernel
    rw [h] at this
    cases this
  | ok o =>
    have h1 : entry ((fresh ![1, 1] true).coeffTopK demoEnv 0) 0 5 = some 1 := by decide +kernel
    have h2 : (match (fresh ![1, 1] true).coeffTopK demoEnv 0 with
      | .error _ => none
      | .ok o => entry (o.coeffTopK demoEnv 0) 0 5) = some 2 := by decide +kernel
    rw [h] at h1 h2
    refine ⟨o, rfl, h1, h2, fun e he => ?_⟩
    obtain ⟨-, -, h3⟩ := c81_topK ![1, 1] (by decide) (fun d hd => Nat.dvd_one.1 (hd 0)) true demoEnv demoEnv_ok 0 o h e he
    obtain ⟨q, hq, hv⟩ := h3 0 le_rfl
    unfold entry at h1
    simp only [hq, Option.map_some, Option.some.injEq] at h1
    rw [← h1]
    exact (hv 5).symm

/-- **C81, violated for weights with a common divisor** by the default gcd method of the tool: it takes the gcd of the whole list to be 1 without computing it
(TopKnapsack.cpp:1337–1341) and answers 1/4 for the weights 2, 2, for every `t`; no quasi-polynomial of the count has that coefficient. -/
theorem c81_common_divisor (t : ℤ) : (∃ o q, (fresh ![2, 2] true).coeffTopK demoEnv 0 = .ok o ∧ o.getCoeffNminusK 0 = some q ∧ q t = 1 / 4) ∧
    ∀ e, IsQuasi 1 e (fun t => (ways ![2, 2] t : ℚ)) → ¬ ∀ t, e 1 t = 1 / 4 := by
  constructor
  · have h1 : (match (fresh ![2, 2] true).coeffTopK demoEnv 0 with
      | .error _ => none
      | .ok o => (o.getCoeffNminusK 0).map fun _ => 0) = some 0 := by decide +kernel
    cases h : (fresh ![2, 2] true).coeffTopK demoEnv 0 with
    | error e => rw [h] at h1; cases h1
    | ok o =>
      rw [h] at h1
      cases hq : o.getCoeffNminusK 0 with
      | none => simp [hq] at h1
      | some q =>
        refine ⟨o, q, rfl, hq, ?_⟩
        have : (match (fresh ![2, 2] true).coeffTopK demoEnv 0 with
          | .error _ => none
          | .ok o => (o.getCoeffNminusK 0).map fun q => q t) = some (1 / 4) := by
          refine Eq.trans (b := entry ((fresh ![2, 2] true).coeffTopK demoEnv 0) 0 0) ?_ (by decide +kernel)
          exact (by with_unfolding_all rfl)
        rw [h] at this
        simpa [hq] using this
  · intro e he hall
    obtain ⟨q, hq, hp⟩ := he.periodic
    have hodd : ∀ s : ℕ, ways ![2, 2] (2 * s + 1) = 0 := by
      intro s
      unfold ways
      have : IsEmpty {x : Fin 2 → ℕ // ∑ i, ![2, 2] i * x i = 2 * s + 1} := by
        refine ⟨fun x => ?_⟩
        have := x.2
        simp [Fin.sum_univ_two] at this
        omega
      exact Nat.card_of_isEmpty
    have h1 := he.value 1
    have h2 := he.value (2 * q + 1)
    have h3 := hodd 0
    rw [hodd] at h2
    simp only [mul_zero, zero_add] at h3
    rw [h3] at h1
    have hp2 : ∀ j, e j (2 * q + 1) = e j 1 := fun j => by
      rw [show 2 * q + 1 = 1 + q + q by ring, hp, hp]
    simp only [Finset.sum_range_succ, Finset.sum_range_zero, hp2, hall] at h1 h2
    push_cast at h1 h2
    have : (q : ℚ) = 0 := by linarith
    exact hq.ne' (by exact_mod_cast this)

/-- The other method ends with an exception for these weights. -/
theorem c81_common_divisor_exception : (match (fresh ![2, 2] false).coeffTopK demoEnv 0 with | .error e => some e | .ok _ => none) = some .exception := by decide +kernel

end Verif.TopK
