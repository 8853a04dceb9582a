import Mathlib.Data.Real.Basic
import Mathlib.Data.Real.Sign
import Mathlib.Data.Sign.Basic
import Mathlib.Algebra.BigOperators.Fin
import Mathlib.Algebra.Order.Field.Basic
import Mathlib.Data.Finset.Max
import Mathlib.Tactic.Linarith
import Mathlib.Tactic.FieldSimp
import Mathlib.Tactic.Ring

/-!
# The sign identity behind Barvinok's step

In coordinates with respect to the rays, the step is a statement about the times at which the line
`x - t·z` enters and leaves the positive orthant.
-/

namespace Verif.Barvinok

open scoped Classical

/-- Membership of the point with coordinates `x` in cone number `i`, in coordinates. -/
def InChild {n : ℕ} (x l : Fin n → ℝ) (i : Fin n) : Prop :=
  l i ≠ 0 ∧ 0 ≤ x i / l i ∧ ∀ j, 0 ≤ x j - x i / l i * l j

/-- Sign of a real number as an integer. -/
noncomputable def sg (r : ℝ) : ℤ := if 0 < r then 1 else if r < 0 then -1 else 0

theorem sign_identity {n : ℕ} (x l : Fin n → ℝ) (hpos : ∃ i, 0 < l i) (hx : ∀ i, x i ≠ 0)
    (hgen : ∀ i j, i ≠ j → l i ≠ 0 → x j * l i ≠ x i * l j) :
    (if ∀ i, 0 ≤ x i then (1 : ℤ) else 0) = ∑ i, sg (l i) * (if InChild x l i then 1 else 0) := by
  set t : Fin n → ℝ := fun i => x i / l i with ht
  have hxt : ∀ i, l i ≠ 0 → x i = t i * l i := fun i h => by
    simp only [ht]; field_simp
  -- the times are distinct
  have hdist : ∀ i j, i ≠ j → l i ≠ 0 → l j ≠ 0 → t i ≠ t j := by
    intro i j hij hi hj h
    apply hgen i j hij hi
    rw [hxt i hi, hxt j hj, h]; ring
  have htne : ∀ i, l i ≠ 0 → t i ≠ 0 := fun i hi h => hx i (by rw [hxt i hi, h, zero_mul])
  obtain ⟨p, hp⟩ := hpos
  obtain ⟨i0, hi0, hmin⟩ := Finset.exists_min_image (Finset.univ.filter fun i => 0 < l i) t
    ⟨p, by simpa using hp⟩
  simp only [Finset.mem_filter, Finset.mem_univ, true_and] at hi0 hmin
  -- membership for general time
  have hIn : ∀ s : ℝ, (∀ j, 0 ≤ x j - s * l j) ↔
      (∀ j, 0 < l j → s ≤ t j) ∧ (∀ j, l j < 0 → t j ≤ s) ∧ (∀ j, l j = 0 → 0 ≤ x j) := by
    intro s
    constructor
    · intro h
      refine ⟨fun j hj => ?_, fun j hj => ?_, fun j hj => ?_⟩
      · have := h j; rw [hxt j hj.ne', ← sub_mul] at this
        have := nonneg_of_mul_nonneg_left this hj
        linarith
      · have := h j; rw [hxt j hj.ne, ← sub_mul] at this
        by_contra hc
        have := mul_neg_of_pos_of_neg (show 0 < t j - s by linarith [not_le.mp hc]) hj
        linarith
      · have := h j; rw [hj] at this; simpa using this
    · rintro ⟨h1, h2, h3⟩ j
      rcases lt_trichotomy (l j) 0 with hj | hj | hj
      · rw [hxt j hj.ne, ← sub_mul]
        exact mul_nonneg_of_nonpos_of_nonpos (by linarith [h2 j hj]) hj.le
      · rw [hj]; simpa using h3 j hj
      · rw [hxt j hj.ne', ← sub_mul]
        exact mul_nonneg (by linarith [h1 j hj]) hj.le
  have h0In : (∀ i, 0 ≤ x i) ↔ ((∀ j, 0 < l j → 0 ≤ t j) ∧ (∀ j, l j < 0 → t j ≤ 0) ∧
      (∀ j, l j = 0 → 0 ≤ x j)) := by
    rw [← hIn 0]; simp
  have hchild : ∀ i, InChild x l i ↔ l i ≠ 0 ∧ 0 ≤ t i ∧ (∀ j, 0 < l j → t i ≤ t j) ∧
      (∀ j, l j < 0 → t j ≤ t i) ∧ (∀ j, l j = 0 → 0 ≤ x j) := by
    intro i
    unfold InChild
    rw [hIn (x i / l i)]
  -- only the first exit contributes among positive signs
  have honlyP : ∀ i, 0 < l i → i ≠ i0 → ¬ InChild x l i := by
    intro i hi hne hc
    have h1 := ((hchild i).mp hc).2.2.1 i0 hi0
    exact hdist i i0 hne hi.ne' hi0.ne' (le_antisymm h1 (hmin i hi))
  by_cases hN : ∃ q, l q < 0
  · obtain ⟨q, hq⟩ := hN
    obtain ⟨i1, hi1, hmax⟩ := Finset.exists_max_image (Finset.univ.filter fun i => l i < 0) t
      ⟨q, by simpa using hq⟩
    simp only [Finset.mem_filter, Finset.mem_univ, true_and] at hi1 hmax
    have honlyN : ∀ i, l i < 0 → i ≠ i1 → ¬ InChild x l i := by
      intro i hi hne hc
      have h1 := ((hchild i).mp hc).2.2.2.1 i1 hi1
      exact hdist i i1 hne hi.ne hi1.ne (le_antisymm (hmax i hi) h1)
    have hne : i0 ≠ i1 := by rintro rfl; linarith
    have hsum : ∑ i, sg (l i) * (if InChild x l i then (1 : ℤ) else 0) =
        (if InChild x l i0 then 1 else 0) - (if InChild x l i1 then 1 else 0) := by
      rw [Finset.sum_eq_add i0 i1 hne]
      · have e0 : sg (l i0) = 1 := by simp [sg, hi0]
        have e1 : sg (l i1) = -1 := by simp [sg, hi1, hi1.le]
        rw [e0, e1]; ring
      · intro c _ hc
        rcases lt_trichotomy (l c) 0 with h | h | h
        · simp [honlyN c h hc.2]
        · simp [sg, h]
        · simp [honlyP c h hc.1]
      · simp
      · simp
    rw [hsum]
    have hA0 : (∀ j, 0 < l j → t i0 ≤ t j) := hmin
    have hA1 : (∀ j, l j < 0 → t j ≤ t i1) := hmax
    by_cases hI : t i1 ≤ t i0 ∧ ∀ j, l j = 0 → 0 ≤ x j
    · obtain ⟨hle, hz⟩ := hI
      have e0 : InChild x l i0 ↔ 0 ≤ t i0 := by
        rw [hchild]
        exact ⟨fun h => h.2.1, fun h => ⟨hi0.ne', h, hA0, fun j hj => (hA1 j hj).trans hle, hz⟩⟩
      have e1 : InChild x l i1 ↔ 0 ≤ t i1 := by
        rw [hchild]
        exact ⟨fun h => h.2.1, fun h => ⟨hi1.ne, h, fun j hj => hle.trans (hA0 j hj), hA1, hz⟩⟩
      have e : (∀ i, 0 ≤ x i) ↔ 0 ≤ t i0 ∧ t i1 ≤ 0 := by
        rw [h0In]
        exact ⟨fun h => ⟨h.1 i0 hi0, h.2.1 i1 hi1⟩, fun h => ⟨fun j hj => h.1.trans (hA0 j hj),
          fun j hj => (hA1 j hj).trans h.2, hz⟩⟩
      have hn := htne i1 hi1.ne
      simp only [e0, e1, e]
      by_cases c0 : 0 ≤ t i0 <;> by_cases c1 : 0 ≤ t i1
      · have : ¬ t i1 ≤ 0 := fun h => hn (le_antisymm h c1)
        simp [c0, c1, this]
      · have : t i1 ≤ 0 := (not_le.mp c1).le
        simp [c0, c1, this]
      · exact absurd (c1.trans hle) c0
      · simp [c0, c1]
    · have e0 : ¬ InChild x l i0 := by
        rw [hchild]
        rintro ⟨_, _, _, h, hz⟩
        exact hI ⟨h i1 hi1, hz⟩
      have e1 : ¬ InChild x l i1 := by
        rw [hchild]
        rintro ⟨_, _, h, _, hz⟩
        exact hI ⟨h i0 hi0, hz⟩
      have e : ¬ ∀ i, 0 ≤ x i := by
        rw [h0In]
        rintro ⟨h1, h2, hz⟩
        exact hI ⟨(h2 i1 hi1).trans (h1 i0 hi0), hz⟩
      simp [e0, e1, e]
  · have hN' : ∀ j, ¬ l j < 0 := fun j hj => hN ⟨j, hj⟩
    rw [Finset.sum_eq_single i0]
    · have e0 : InChild x l i0 ↔ ∀ i, 0 ≤ x i := by
        rw [hchild, h0In]
        constructor
        · rintro ⟨_, h, h1, _, hz⟩
          exact ⟨fun j hj => h.trans (h1 j hj), fun j hj => absurd hj (hN' j), hz⟩
        · rintro ⟨h1, _, hz⟩
          exact ⟨hi0.ne', h1 i0 hi0, hmin, fun j hj => absurd hj (hN' j), hz⟩
      simp [e0, sg, hi0]
    · intro c _ hc
      rcases lt_trichotomy (l c) 0 with h | h | h
      · exact absurd h (hN' c)
      · simp [sg, h]
      · simp [honlyP c h hc]
    · simp

end Verif.Barvinok
