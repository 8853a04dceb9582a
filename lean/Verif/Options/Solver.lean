import Verif.Irrational.Lemmas
import Mathlib.Data.Finset.Max
import Mathlib.Algebra.BigOperators.Fin

/-!
# C96: a solver for linear programs exists

Rational linear programs with a solution and a bounded objective have an optimal solution: elimination of variables.
-/

namespace Verif.Options

open Verif.Barvinok Verif.Irrational

/-- Elimination of one variable. -/
theorem eliminate_one (L : List (ℚ × ℚ)) : (∃ t, ∀ p ∈ L, 0 ≤ p.1 + p.2 * t) ↔
    (∀ p ∈ L, p.2 = 0 → 0 ≤ p.1) ∧ ∀ p ∈ L, ∀ q ∈ L, 0 < p.2 → q.2 < 0 → 0 ≤ p.2 * q.1 - q.2 * p.1 := by
  constructor
  · rintro ⟨t, ht⟩
    refine ⟨fun p hp h0 => by have := ht p hp; rw [h0] at this; linarith, fun p hp q hq h1 h2 => ?_⟩
    have a1 := mul_nonneg h1.le (ht q hq)
    have a2 := mul_nonneg (neg_nonneg.2 h2.le) (ht p hp)
    nlinarith
  · rintro ⟨h0, hpq⟩
    by_cases hpos : ∃ p ∈ L, 0 < p.2
    · have hne : (L.toFinset.filter fun p => 0 < p.2).Nonempty := by
        obtain ⟨p, hp, h⟩ := hpos
        exact ⟨p, by simp [hp, h]⟩
      obtain ⟨p, hp, hmax⟩ := Finset.exists_max_image _ (fun p : ℚ × ℚ => -p.1 / p.2) hne
      simp only [Finset.mem_filter, List.mem_toFinset] at hp hmax
      have ep : p.1 + p.2 * (-p.1 / p.2) = 0 := by field_simp [hp.2.ne']; ring
      refine ⟨-p.1 / p.2, fun q hq => ?_⟩
      rcases lt_trichotomy q.2 0 with hq2 | hq2 | hq2
      · have := hpq p hp.1 q hq hp.2 hq2
        have e : q.1 + q.2 * (-p.1 / p.2) = (p.2 * q.1 - q.2 * p.1) / p.2 := by field_simp [hp.2.ne']; ring
        rw [e]
        exact div_nonneg this hp.2.le
      · rw [hq2, zero_mul, add_zero]
        exact h0 q hq hq2
      · have := hmax q ⟨hq, hq2⟩
        have e : q.1 + q.2 * (-q.1 / q.2) = 0 := by field_simp [hq2.ne']; ring
        have := mul_le_mul_of_nonneg_left this hq2.le
        linarith
    · by_cases hneg : ∃ p ∈ L, p.2 < 0
      · have hne : (L.toFinset.filter fun p => p.2 < 0).Nonempty := by
          obtain ⟨p, hp, h⟩ := hneg
          exact ⟨p, by simp [hp, h]⟩
        obtain ⟨p, hp, hmin⟩ := Finset.exists_min_image _ (fun p : ℚ × ℚ => -p.1 / p.2) hne
        simp only [Finset.mem_filter, List.mem_toFinset] at hp hmin
        refine ⟨-p.1 / p.2, fun q hq => ?_⟩
        rcases lt_trichotomy q.2 0 with hq2 | hq2 | hq2
        · have := hmin q ⟨hq, hq2⟩
          have e : q.1 + q.2 * (-q.1 / q.2) = 0 := by field_simp [hq2.ne]; ring
          have := mul_le_mul_of_nonpos_left this hq2.le
          linarith
        · rw [hq2, zero_mul, add_zero]
          exact h0 q hq hq2
        · exact absurd ⟨q, hq, hq2⟩ hpos
      · refine ⟨0, fun q hq => ?_⟩
        rcases lt_trichotomy q.2 0 with hq2 | hq2 | hq2
        · exact absurd ⟨q, hq, hq2⟩ hneg
        · rw [mul_zero, add_zero]
          exact h0 q hq hq2
        · exact absurd ⟨q, hq, hq2⟩ hpos

/-- Elimination of all variables but one. -/
theorem eliminate_all : ∀ (n : ℕ) (S : List (ℚ × (Fin n → ℚ) × ℚ)), ∃ T : List (ℚ × ℚ), ∀ l : ℚ,
    (∃ x : Fin n → ℚ, ∀ q ∈ S, 0 ≤ q.1 + ∑ k, q.2.1 k * x k + q.2.2 * l) ↔ ∀ p ∈ T, 0 ≤ p.1 + p.2 * l := by
  intro n
  induction n with
  | zero =>
    intro S
    refine ⟨S.map fun q => (q.1, q.2.2), fun l => ⟨?_, ?_⟩⟩
    · rintro ⟨x, hx⟩ p hp
      obtain ⟨q, hq, rfl⟩ := List.mem_map.1 hp
      have := hx q hq
      rw [Finset.univ_eq_empty, Finset.sum_empty, add_zero] at this
      exact this
    · intro h
      refine ⟨Fin.elim0, fun q hq => ?_⟩
      rw [Finset.univ_eq_empty, Finset.sum_empty, add_zero]
      exact h _ (List.mem_map.2 ⟨q, hq, rfl⟩)
  | succ n ih =>
    intro S
    obtain ⟨T, hT⟩ := ih ((S.filter fun q => decide (q.2.1 0 = 0)).map (fun q => (q.1, fun k => q.2.1 k.succ, q.2.2)) ++
      S.flatMap fun p => (S.filter fun q => decide (0 < p.2.1 0 ∧ q.2.1 0 < 0)).map fun q =>
        (p.2.1 0 * q.1 - q.2.1 0 * p.1, fun k => p.2.1 0 * q.2.1 k.succ - q.2.1 0 * p.2.1 k.succ, p.2.1 0 * q.2.2 - q.2.1 0 * p.2.2))
    refine ⟨T, fun l => ?_⟩
    rw [← hT]
    constructor
    · rintro ⟨x, hx⟩
      have h := (eliminate_one (S.map fun q => (q.1 + ∑ k : Fin n, q.2.1 k.succ * x k.succ + q.2.2 * l, q.2.1 0))).1 ⟨x 0, fun p hp => by
        obtain ⟨q, hq, rfl⟩ := List.mem_map.1 hp
        have := hx q hq
        rw [Fin.sum_univ_succ] at this
        dsimp only
        linarith⟩
      refine ⟨fun k => x k.succ, fun q hq => ?_⟩
      rcases List.mem_append.1 hq with hq | hq
      · obtain ⟨r, hr, rfl⟩ := List.mem_map.1 hq
        obtain ⟨hr1, hr2⟩ := List.mem_filter.1 hr
        exact h.1 _ (List.mem_map.2 ⟨r, hr1, rfl⟩) (of_decide_eq_true hr2)
      · obtain ⟨p, hp, hq⟩ := List.mem_flatMap.1 hq
        obtain ⟨r, hr, rfl⟩ := List.mem_map.1 hq
        obtain ⟨hr1, hr2⟩ := List.mem_filter.1 hr
        have hs := of_decide_eq_true hr2
        have h2 := h.2 _ (List.mem_map.2 ⟨p, hp, rfl⟩) _ (List.mem_map.2 ⟨r, hr1, rfl⟩) hs.1 hs.2
        dsimp only at h2 ⊢
        have e : ∑ k : Fin n, (p.2.1 0 * r.2.1 k.succ - r.2.1 0 * p.2.1 k.succ) * x k.succ =
            p.2.1 0 * ∑ k : Fin n, r.2.1 k.succ * x k.succ - r.2.1 0 * ∑ k : Fin n, p.2.1 k.succ * x k.succ := by
          rw [Finset.mul_sum, Finset.mul_sum, ← Finset.sum_sub_distrib]
          exact Finset.sum_congr rfl fun k _ => by ring
        rw [e]
        linarith
    · rintro ⟨x, hx⟩
      obtain ⟨t, ht⟩ := (eliminate_one (S.map fun q => (q.1 + ∑ k : Fin n, q.2.1 k.succ * x k + q.2.2 * l, q.2.1 0))).2 (by
        constructor
        · intro p hp h0
          obtain ⟨q, hq, rfl⟩ := List.mem_map.1 hp
          exact hx (q.1, fun k => q.2.1 k.succ, q.2.2) (List.mem_append.2 (Or.inl (List.mem_map.2 ⟨q, List.mem_filter.2 ⟨hq, decide_eq_true h0⟩, rfl⟩)))
        · intro p hp q hq h1 h2
          obtain ⟨P, hP, rfl⟩ := List.mem_map.1 hp
          obtain ⟨Q, hQ, rfl⟩ := List.mem_map.1 hq
          have := hx _ (List.mem_append.2 (Or.inr (List.mem_flatMap.2 ⟨P, hP, List.mem_map.2 ⟨Q, List.mem_filter.2 ⟨hQ, decide_eq_true ⟨h1, h2⟩⟩, rfl⟩⟩)))
          dsimp only at this ⊢
          have e : ∑ k : Fin n, (P.2.1 0 * Q.2.1 k.succ - Q.2.1 0 * P.2.1 k.succ) * x k =
              P.2.1 0 * ∑ k : Fin n, Q.2.1 k.succ * x k - Q.2.1 0 * ∑ k : Fin n, P.2.1 k.succ * x k := by
            rw [Finset.mul_sum, Finset.mul_sum, ← Finset.sum_sub_distrib]
            exact Finset.sum_congr rfl fun k _ => by ring
          rw [e] at this
          linarith)
      refine ⟨Fin.cons t x, fun q hq => ?_⟩
      have := ht _ (List.mem_map.2 ⟨q, hq, rfl⟩)
      rw [Fin.sum_univ_succ]
      simp only [Fin.cons_zero, Fin.cons_succ]
      dsimp only at this
      linarith

/-- An optimal solution exists. -/
theorem optimum_exists {n : ℕ} (S : List (Ineq n)) (hS : ∃ p, ∀ q ∈ S, q.Holds p) (hB : ∃ B : ℚ, ∀ p, (∀ q ∈ S, q.Holds p) → p.2 ≤ B) :
    ∃ o : (Fin n → ℚ) × ℚ, (∀ q ∈ S, q.Holds o) ∧ ∀ p, (∀ q ∈ S, q.Holds p) → p.2 ≤ o.2 := by
  obtain ⟨T, hT⟩ := eliminate_all n (S.map fun q => ((q.b : ℚ), (fun k => (q.a k : ℚ)), (q.c : ℚ)))
  have key : ∀ l : ℚ, (∃ x, ∀ q ∈ S, q.Holds (x, l)) ↔ ∀ p ∈ T, 0 ≤ p.1 + p.2 * l := by
    intro l
    rw [← hT]
    simp only [List.mem_map, forall_exists_index, and_imp, forall_apply_eq_imp_iff₂]
    rfl
  obtain ⟨⟨x0, l0⟩, h0⟩ := hS
  obtain ⟨B, hB⟩ := hB
  have hl0 := (key l0).1 ⟨x0, h0⟩
  have hneg : ∃ p ∈ T, p.2 < 0 := by
    by_contra hno
    push Not at hno
    obtain ⟨x, hx⟩ := (key (max l0 (B + 1))).2 fun p hp => by
      have h1 := hl0 p hp
      have h2 := mul_le_mul_of_nonneg_left (le_max_left l0 (B + 1)) (hno p hp)
      linarith
    have h1 : max l0 (B + 1) ≤ B := hB _ hx
    have h2 := le_max_right l0 (B + 1)
    linarith
  have hne : (T.toFinset.filter fun p => p.2 < 0).Nonempty := by
    obtain ⟨p, hp, h⟩ := hneg
    exact ⟨p, by simp [hp, h]⟩
  obtain ⟨p, hp, hmin⟩ := Finset.exists_min_image _ (fun p : ℚ × ℚ => -p.1 / p.2) hne
  simp only [Finset.mem_filter, List.mem_toFinset] at hp hmin
  have hbound : ∀ l : ℚ, ∀ q : ℚ × ℚ, q.2 < 0 → (0 ≤ q.1 + q.2 * l ↔ l ≤ -q.1 / q.2) := by
    intro l q hq
    rw [le_div_iff_of_neg hq]
    constructor <;> intro h <;> linarith
  obtain ⟨x, hx⟩ := (key (-p.1 / p.2)).2 fun q hq => by
    rcases lt_or_ge q.2 0 with hq2 | hq2
    · rw [hbound _ q hq2]
      exact hmin q ⟨hq, hq2⟩
    · have h1 := hl0 q hq
      have h2 := (hbound l0 p hp.2).1 (hl0 p hp.1)
      have h3 := mul_le_mul_of_nonneg_left h2 hq2
      linarith
  refine ⟨(x, -p.1 / p.2), hx, fun r hr => ?_⟩
  exact (hbound _ p hp.2).1 ((key r.2).1 ⟨r.1, hr⟩ p hp.1)

/-- The contract of the solver can be kept. -/
theorem solverOk_satisfiable (n : ℕ) : ∃ lp : Solver n, SolverOk lp := by
  classical
  refine ⟨fun S => if h : (∃ p, ∀ q ∈ S, q.Holds p) ∧ ∃ B : ℚ, ∀ p, (∀ q ∈ S, q.Holds p) → p.2 ≤ B then (optimum_exists S h.1 h.2).choose else (0, 0), fun S h1 h2 => ?_⟩
  beta_reduce
  rw [dif_pos ⟨h1, h2⟩]
  exact (optimum_exists S h1 h2).choose_spec

end Verif.Options
