import Verif.Knapsack.Model
import Mathlib.NumberTheory.Bernoulli
import Mathlib.Data.Nat.Choose.Basic

/-! C28 (Bernoulli numbers) and C31 (binomial helper) of the knapsack solver. -/

namespace Latte.Knapsack
open Finset

theorem riseLoop_eq (c : Nat) (i d : Int) : riseLoop c i d = d * ∏ t ∈ range c, (i + t) := by
  induction c generalizing i d with
  | zero => simp [riseLoop]
  | succ c ih =>
    rw [riseLoop, ih, prod_range_succ']
    simp only [Nat.cast_add, Nat.cast_one, Nat.cast_zero, add_zero]
    have : ∏ t ∈ range c, (i + 1 + (t : Int)) = ∏ t ∈ range c, (i + ((t : Int) + 1)) := by
      apply prod_congr rfl; intro t _; ring
    rw [this]; ring

theorem fallLoop_eq (c : Nat) (i d : Int) : fallLoop c i d = d * ∏ t ∈ range c, (i - t) := by
  induction c generalizing i d with
  | zero => simp [fallLoop]
  | succ c ih =>
    rw [fallLoop, ih, prod_range_succ']
    simp only [Nat.cast_add, Nat.cast_one, Nat.cast_zero, sub_zero]
    have : ∏ t ∈ range c, (i - 1 - (t : Int)) = ∏ t ∈ range c, (i - ((t : Int) + 1)) := by
      apply prod_congr rfl; intro t _; ring
    rw [this]; ring

theorem riseLoop_fact (k : Nat) : riseLoop k 1 1 = (k.factorial : Int) := by
  rw [riseLoop_eq, one_mul]
  induction k with
  | zero => simp
  | succ k ih => rw [prod_range_succ, ih, Nat.factorial_succ]; push_cast; ring

theorem fallLoop_desc (n k : Nat) (h : k ≤ n) : fallLoop k n 1 = (n.descFactorial k : Int) := by
  rw [fallLoop_eq, one_mul]
  induction k with
  | zero => simp
  | succ k ih =>
    rw [prod_range_succ, ih (by omega), Nat.descFactorial_succ]
    push_cast [Nat.cast_sub (show k ≤ n by omega)]; ring

/-- **C31** For `0 ≤ k ≤ n` the helper returns the binomial coefficient (already at recursion depth one). -/
theorem c31_binomial_exact (n k : Nat) (h : k ≤ n) (fuel : Nat) :
    binomial (fuel + 1) n k = some (n.choose k : Int) := by
  unfold binomial
  by_cases h1 : (k : Int) = n ∨ (k : Int) = 0
  · rw [if_pos h1]
    rcases h1 with h1 | h1
    · have : k = n := by exact_mod_cast h1
      simp [this]
    · have : k = 0 := by exact_mod_cast h1
      simp [this]
  · rw [if_neg h1]
    have hk : 0 < k := by omega
    have hdiv : ¬ ((n : Int).tdiv k ≤ 0) := by
      have : (n : Int).tdiv k = ((n / k : Nat) : Int) := rfl
      rw [this]
      have := Nat.div_pos h hk
      omega
    rw [if_neg hdiv]
    simp only [Int.toNat_natCast]
    rw [fallLoop_desc n k h, riseLoop_fact]
    congr 1
    rw [Nat.descFactorial_eq_factorial_mul_choose]
    push_cast
    have : (k.factorial : Int) ≠ 0 := by exact_mod_cast k.factorial_ne_zero
    rw [Int.fdiv_eq_ediv_of_dvd (Dvd.intro _ rfl), Int.mul_ediv_cancel_left _ this]

theorem binomial_up (n k : Nat) (h : k < n) (fuel : Nat) :
    binomial fuel k n = none ∧ binomial fuel k ((k : Int) - n) = none := by
  induction fuel with
  | zero => exact ⟨rfl, rfl⟩
  | succ fuel ih =>
    constructor
    · unfold binomial
      rw [if_neg (by omega)]
      have : ((k : Int).tdiv n) = ((k / n : Nat) : Int) := rfl
      rw [if_pos (by rw [this, Nat.div_eq_of_lt h]; simp)]
      exact ih.2
    · unfold binomial
      rw [if_neg (by omega)]
      have : ((k : Int).tdiv ((k : Int) - n)) ≤ 0 := by
        have e : (k : Int) - n = -(((n - k : Nat)) : Int) := by push_cast [Nat.cast_sub h.le]; ring
        rw [e, Int.tdiv_neg]
        have : ((k : Int).tdiv ((n - k : Nat) : Int)) = ((k / (n - k) : Nat) : Int) := rfl
        rw [this]; exact neg_nonpos.2 (Int.natCast_nonneg _)
      rw [if_pos this]
      have e : (k : Int) - ((k : Int) - n) = n := by ring
      rw [e]; exact ih.1

/-- **C31** For `k > n ≥ 0` (and for negative `k`) the helper never returns: no recursion depth suffices. -/
theorem c31_binomial_diverges (n : Nat) (k : Int) (h : k > n ∨ k < 0) (fuel : Nat) : binomial fuel n k = none := by
  rcases h with h | h
  · obtain ⟨m, rfl⟩ : ∃ m : Nat, k = m := ⟨k.toNat, by omega⟩
    exact (binomial_up m n (by omega) fuel).1
  · have := (binomial_up (n + k.natAbs) n (by omega) fuel).2
    have e : (n : Int) - ((n + k.natAbs : Nat) : Int) = k := by omega
    rw [e] at this
    exact this

/-- non-vacuity -/
example : binomial 1 6 2 = some 15 ∧ binomial 1000 2 3 = none := by
  refine ⟨by decide, c31_binomial_diverges 2 3 (by decide) 1000⟩

theorem bernLoop_eq (B : List ℚ) (m : Nat) (c j : Nat) (hc : j + c = m) (acc : ℚ) :
    bernLoop B m c j acc =
      some (acc + ∑ t ∈ range c, B.getD (j + t) 0 * ((m.choose (j + t) : ℚ) / ((m : ℚ) - ((j + t : Nat) : ℚ) + 1))) := by
  induction c generalizing j acc with
  | zero => simp [bernLoop]
  | succ c ih =>
    unfold bernLoop
    rw [c31_binomial_exact m j (by omega) 1]
    simp only
    rw [ih (j + 1) (by omega), sum_range_succ']
    congr 1
    have : ∀ t, j + 1 + t = j + (t + 1) := by intro t; omega
    simp only [this, Nat.add_zero]
    push_cast
    ring

theorem bernTable_eq (c m : Nat) (hm : 1 ≤ m) (B : List ℚ) (hB : B = (List.range m).map bernoulli') :
    bernTable c m B = some ((List.range (m + c)).map bernoulli') := by
  induction c generalizing m B with
  | zero => simp [bernTable, hB]
  | succ c ih =>
    unfold bernTable
    have hnext : ∀ v, v = bernoulli' m → B ++ [v] = (List.range (m + 1)).map bernoulli' := by
      intro v hv
      rw [List.range_succ, List.map_append, hB, hv]; rfl
    by_cases hodd : m > 1 ∧ m % 2 = 1
    · rw [if_pos hodd, ih (m + 1) (by omega) _ (hnext 0 (by
        rw [bernoulli'_eq_zero_of_odd (Nat.odd_iff.2 hodd.2) hodd.1]))]
      congr 3; omega
    · rw [if_neg hodd, bernLoop_eq B m m 0 (by omega)]
      simp only
      rw [ih (m + 1) (by omega) _ (hnext _ ?_)]
      · congr 3; omega
      · rw [bernoulli'_def]
        simp only [zero_add]
        rw [neg_add_eq_sub]
        congr 1
        apply sum_congr rfl
        intro t ht
        have ht' := mem_range.1 ht
        have : B.getD t 0 = bernoulli' t := by
          simp [hB, List.getD, ht']
        rw [this]; ring

/-- **C28** For every `k` the computed table is exactly `B_0, …, B_k`, the Bernoulli numbers of the first kind
(`B_1 = -1/2`), as defined in Mathlib by `t/(e^t - 1) = ∑ B_n tⁿ/n!`. -/
theorem c28_bernoulli_table (k : Nat) : setBernoulli k = some ((List.range (k + 1)).map bernoulli) := by
  unfold setBernoulli
  rw [bernTable_eq k 1 le_rfl [1] (by simp [bernoulli'_zero]), Option.map_some]
  congr 1
  by_cases hk : 1 ≤ k
  · rw [if_pos hk]
    apply List.ext_getElem
    · simp; omega
    · intro i h1 h2
      simp only [List.length_map, List.length_range] at h2
      rw [List.getElem_set]
      by_cases hi : 1 = i
      · subst hi
        have : 1 < 1 + k := by omega
        simp [List.getD, this, bernoulli_one]
        norm_num
      · rw [if_neg hi]
        simp only [List.getElem_map, List.getElem_range]
        exact (bernoulli_eq_bernoulli'_of_ne_one (fun h => hi h.symm)).symm
  · have : k = 0 := by omega
    subst this
    simp [bernoulli'_zero, bernoulli_zero]

end Latte.Knapsack
