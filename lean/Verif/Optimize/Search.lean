import Verif.Optimize.Spec
import Mathlib.Data.Nat.Log
import Mathlib.Tactic.Linarith
import Mathlib.Tactic.Ring

/-!
# The files mean what they should, and the bisection
-/

namespace Verif.Optimize

open Verif.Barvinok (Vec)
open Verif.Barvinok.Spec (dot)

variable {n : ℕ}

theorem dot_neg_left (f : Vec n) (x : Fin n → ℝ) : dot (-f) x = -dot f x := by
  simp [dot, Finset.sum_neg_distrib]

/-! ## The files -/

theorem length_lpRows (eqs : List (Row n)) : (lpRows eqs).length = 2 * eqs.length := by
  induction eqs with
  | nil => rfl
  | cons r rs ih => simp only [lpRows, List.length_cons, ih]; omega

theorem lpFile_wellFormed (eqs ineqs : List (Row n)) (cost : Vec n) : (lpFile eqs ineqs cost).WellFormed := by
  refine ⟨?_, rfl⟩
  simp [lpFile, length_lpRows]

theorem mem_lpRows (eqs : List (Row n)) (x : Fin n → ℝ) :
    (∀ r ∈ lpRows eqs, 0 ≤ (r.1 : ℝ) + dot r.2 x) ↔ ∀ r ∈ eqs, (r.1 : ℝ) + dot r.2 x = 0 := by
  induction eqs with
  | nil => simp [lpRows]
  | cons r rs ih =>
    rw [lpRows, List.forall_mem_cons, List.forall_mem_cons, List.forall_mem_cons, ih]
    simp only [dot_neg_left, Int.cast_neg]
    constructor
    · rintro ⟨h1, h2, h3⟩; exact ⟨by linarith, h3⟩
    · rintro ⟨h1, h2⟩; exact ⟨h1.ge, by linarith, h2⟩

theorem lpFile_sol (eqs ineqs : List (Row n)) (cost : Vec n) : (lpFile eqs ineqs cost).Sol = Feasible eqs ineqs := by
  ext x
  show (∀ r ∈ lpRows eqs ++ ineqs, _) ↔ _ ∧ _
  rw [← mem_lpRows, List.forall_mem_append]

theorem latteFileEqu_wellFormed (eqs ineqs : List (Row n)) (rhs : ℤ) (lhs : Vec n) : (latteFileEqu eqs ineqs rhs lhs).WellFormed := by
  refine ⟨by simp [latteFileEqu]; omega, rfl, ?_⟩
  intro i hi
  simp only [latteFileEqu, List.mem_cons, List.mem_map, List.mem_range, List.length_append, List.length_cons] at hi ⊢
  rcases hi with rfl | ⟨a, ha, rfl⟩ <;> omega

theorem latteFile_wellFormed (eqs ineqs : List (Row n)) (rhs : ℤ) (lhs : Vec n) : (latteFile eqs ineqs rhs lhs).WellFormed := by
  refine ⟨by simp [latteFile]; omega, rfl, ?_⟩
  intro i hi
  simp only [latteFile, List.mem_map, List.mem_range, List.length_append, List.length_cons] at hi ⊢
  obtain ⟨a, ha, rfl⟩ := hi
  omega

/-- A list of rows of which the first `k` are equations. -/
theorem prefix_sol (as bs : List (Row n)) (x : Fin n → ℝ) :
    (∀ (i : ℕ) (h : i < (as ++ bs).length), 0 ≤ (((as ++ bs)[i]).1 : ℝ) + dot ((as ++ bs)[i]).2 x ∧
      (i < as.length → (((as ++ bs)[i]).1 : ℝ) + dot ((as ++ bs)[i]).2 x = 0)) ↔
      (∀ r ∈ as, (r.1 : ℝ) + dot r.2 x = 0) ∧ ∀ r ∈ bs, 0 ≤ (r.1 : ℝ) + dot r.2 x := by
  constructor
  · intro h
    constructor
    · intro r hr
      obtain ⟨i, hi, rfl⟩ := List.mem_iff_getElem.mp hr
      have := (h i (by rw [List.length_append]; omega)).2 hi
      rwa [List.getElem_append_left hi] at this
    · intro r hr
      obtain ⟨i, hi, rfl⟩ := List.mem_iff_getElem.mp hr
      have := (h (as.length + i) (by rw [List.length_append]; omega)).1
      rw [List.getElem_append_right (by omega)] at this
      simpa using this
  · rintro ⟨h1, h2⟩ i hi
    by_cases c : i < as.length
    · rw [List.getElem_append_left c]
      have := h1 _ (List.getElem_mem c)
      exact ⟨this.ge, fun _ => this⟩
    · rw [List.getElem_append_right (by omega)]
      exact ⟨h2 _ (List.getElem_mem _), fun h => absurd h c⟩

theorem latteFileEqu_sol (eqs ineqs : List (Row n)) (rhs : ℤ) (lhs : Vec n) :
    (latteFileEqu eqs ineqs rhs lhs).Sol = {x ∈ Feasible eqs ineqs | dot lhs x = rhs} := by
  ext x
  have key := prefix_sol (eqs ++ [(-rhs, lhs)]) ineqs x
  have e : (eqs ++ [(-rhs, lhs)]) ++ ineqs = eqs ++ (-rhs, lhs) :: ineqs := by simp
  have l : (eqs ++ [(-rhs, lhs)]).length = eqs.length + 1 := by simp
  simp only [e, l] at key
  have m : ∀ i, i + 1 ∈ (1 :: (List.range eqs.length).map (2 + ·)) ↔ i < eqs.length + 1 := by
    intro i
    simp only [List.mem_cons, List.mem_map, List.mem_range]
    constructor
    · rintro (h | ⟨a, ha, h⟩) <;> omega
    · intro h
      rcases Nat.eq_zero_or_pos i with rfl | hp
      · exact .inl rfl
      · exact .inr ⟨i - 1, by omega, by omega⟩
  show (∀ (i : ℕ) (h : i < (eqs ++ (-rhs, lhs) :: ineqs).length), _) ↔ _ ∧ _
  simp only [latteFileEqu, m]
  rw [key]
  simp only [List.forall_mem_append, List.forall_mem_singleton, Feasible, Set.mem_ofPred_eq, Int.cast_neg]
  constructor
  · rintro ⟨⟨h1, h2⟩, h3⟩; exact ⟨⟨h1, h3⟩, by linarith⟩
  · rintro ⟨⟨h1, h2⟩, h3⟩; exact ⟨⟨h1, by linarith⟩, h2⟩

theorem latteFile_sol (eqs ineqs : List (Row n)) (rhs : ℤ) (lhs : Vec n) :
    (latteFile eqs ineqs rhs lhs).Sol = {x ∈ Feasible eqs ineqs | (rhs : ℝ) ≤ dot lhs x} := by
  ext x
  have key := prefix_sol eqs ((-rhs, lhs) :: ineqs) x
  have m : ∀ i, i + 1 ∈ (List.range eqs.length).map (1 + ·) ↔ i < eqs.length := by
    intro i
    simp only [List.mem_map, List.mem_range]
    constructor
    · rintro ⟨a, ha, h⟩; omega
    · intro h; exact ⟨i, h, by omega⟩
  show (∀ (i : ℕ) (h : i < (eqs ++ (-rhs, lhs) :: ineqs).length), _) ↔ _ ∧ _
  simp only [latteFile, m]
  rw [key]
  simp only [List.forall_mem_cons, Feasible, Set.mem_ofPred_eq, Int.cast_neg]
  constructor
  · rintro ⟨h1, h2, h3⟩; exact ⟨⟨h1, h3⟩, by linarith⟩
  · rintro ⟨⟨h1, h2⟩, h3⟩; exact ⟨h1, by linarith, h2⟩

/-! ## The bisection -/

/-- If `check` succeeds strictly between `low` and `high`, the loop ends; the number of rounds is at most the binary logarithm of the distance, rounded up; and the
lower end is `low` or accepted, the next number is `high` or rejected. -/
theorem bisect_ok (check : ℤ → Except Stop ℤ) (val : ℤ → ℤ) : ∀ (fuel : ℕ) (low high : ℤ) (counter : ℕ),
    low < high → Nat.clog 2 (high - low).toNat < fuel → (∀ mid, low < mid → mid < high → check mid = .ok (val mid)) →
    ∃ l k, bisect check fuel low high counter = .ok (l, counter + k) ∧ k ≤ Nat.clog 2 (high - low).toNat ∧ low ≤ l ∧ l < high ∧
      (l = low ∨ val l ≠ 0) ∧ (l + 1 = high ∨ val (l + 1) = 0)
  | 0, low, high, counter, _, hf, _ => absurd hf (Nat.not_lt_zero _)
  | fuel + 1, low, high, counter, hlt, hf, hc => by
    rw [bisect]
    by_cases h1 : high - low = 1
    · rw [if_pos h1]
      exact ⟨low, 0, rfl, Nat.zero_le _, le_rfl, hlt, .inl rfl, .inl (by omega)⟩
    · rw [if_neg h1]
      have a1 : low < (low + high) / 2 := by omega
      have a2 : (low + high) / 2 < high := by omega
      have hclog : Nat.clog 2 (high - low).toNat = Nat.clog 2 (((high - low).toNat + 1) / 2) + 1 := by
        rw [Nat.clog_of_two_le (by norm_num) (by omega)]
        simp
      rw [hc _ a1 a2]
      dsimp only
      by_cases h2 : val ((low + high) / 2) ≠ 0
      · rw [if_pos h2]
        have mono : Nat.clog 2 (high - (low + high) / 2).toNat ≤ Nat.clog 2 (((high - low).toNat + 1) / 2) := Nat.clog_mono_right _ (by omega)
        obtain ⟨l, k, e, hk, b1, b2, b3, b4⟩ := bisect_ok check val fuel ((low + high) / 2) high (counter + 1) a2 (by omega)
          (fun mid m1 m2 => hc mid (by omega) m2)
        refine ⟨l, k + 1, by rw [e]; congr 2; omega, by omega, by omega, b2, ?_, b4⟩
        rcases b3 with rfl | b3
        · exact .inr h2
        · exact .inr b3
      · rw [if_neg h2]
        push Not at h2
        have mono : Nat.clog 2 ((low + high) / 2 - low).toNat ≤ Nat.clog 2 (((high - low).toNat + 1) / 2) := Nat.clog_mono_right _ (by omega)
        obtain ⟨l, k, e, hk, b1, b2, b3, b4⟩ := bisect_ok check val fuel low ((low + high) / 2) (counter + 1) a1 (by omega)
          (fun mid m1 m2 => hc mid m1 (by omega))
        refine ⟨l, k + 1, by rw [e]; congr 2; omega, by omega, b1, by omega, b3, ?_⟩
        rcases b4 with b4 | b4
        · rw [b4]; exact .inr h2
        · exact .inr b4

end Verif.Optimize
