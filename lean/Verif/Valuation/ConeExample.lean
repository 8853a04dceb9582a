import Verif.Valuation.ConeMethod
import Mathlib.Data.Fin.VecNotation

/-! The hypotheses of C55 and C56 hold for the triangle with vertices (0,0), (1/2,0), (0,1/3). -/

namespace Verif.Valuation

open MeasureTheory Set Verif.Measure Verif.Trie Latte.RatVec

/-- the tangent cones of the triangle -/
def exCones : List VCone :=
  [⟨ofEntries [(0, 1), (0, 1)], [[1, 0], [0, 1]], 1⟩, ⟨ofEntries [(1, 2), (0, 1)], [[-1, 0], [-3, 2]], 1⟩,
    ⟨ofEntries [(0, 1), (1, 3)], [[0, -1], [3, -2]], 1⟩]

theorem ex_polytope : polytope 2 exCones = {x | 0 ≤ x 0 ∧ 0 ≤ x 1 ∧ 2 * x 0 + 3 * x 1 ≤ 1} := by
  rw [polytope_eq_range, convexHull_range]
  ext x
  simp only [mem_ofPred_eq]
  constructor
  · rintro ⟨l, hl, h1, rfl⟩
    have a0 := hl (0 : Fin 3)
    have a1 := hl (1 : Fin 3)
    have a2 := hl (2 : Fin 3)
    rw [show (∑ i, l i) = l (0 : Fin 3) + l (1 : Fin 3) + l (2 : Fin 3) from Fin.sum_univ_three l] at h1
    have e : ∀ j : Fin 2, (∑ i : Fin exCones.length, l i • pointR 2 exCones[i].vertex) j = l (0 : Fin 3) * pointR 2 exCones[0].vertex j +
        l (1 : Fin 3) * pointR 2 exCones[1].vertex j + l (2 : Fin 3) * pointR 2 exCones[2].vertex j := by
      intro j
      rw [Finset.sum_apply]
      exact Fin.sum_univ_three (fun i : Fin 3 => l i * pointR 2 exCones[i].vertex j)
    rw [e 0, e 1]
    simp only [exCones, pointR, ofEntries, List.getElem_cons_zero, List.getElem_cons_succ, Fin.val_zero, Fin.val_one, List.getD_cons_zero,
      List.getD_cons_succ]
    push_cast
    refine ⟨?_, ?_, ?_⟩ <;> linarith
  · rintro ⟨h0, h1, h2⟩
    refine ⟨(![1 - 2 * x 0 - 3 * x 1, 2 * x 0, 3 * x 1] : Fin 3 → ℝ), ?_, ?_, ?_⟩
    · intro i
      change Fin 3 at i
      fin_cases i <;> simp <;> linarith
    · refine (Fin.sum_univ_three (![1 - 2 * x 0 - 3 * x 1, 2 * x 0, 3 * x 1] : Fin 3 → ℝ)).trans ?_
      simp; ring
    · funext j
      rw [Finset.sum_apply]
      refine Eq.trans ?_ (Fin.sum_univ_three (fun i : Fin 3 => (![1 - 2 * x 0 - 3 * x 1, 2 * x 0, 3 * x 1] : Fin 3 → ℝ) i *
        pointR 2 exCones[i].vertex j)).symm
      fin_cases j <;> simp [exCones, pointR, ofEntries] <;> ring

theorem rayCone_two (a b c d : ℤ) : rayCone 2 [[a, b], [c, d]] =
    {y | ∃ s t : ℝ, 0 ≤ s ∧ 0 ≤ t ∧ y 0 = s * a + t * c ∧ y 1 = s * b + t * d} := by
  ext y
  unfold rayCone
  simp only [mem_ofPred_eq]
  constructor
  · rintro ⟨m, hm, rfl⟩
    refine ⟨m (0 : Fin 2), m (1 : Fin 2), hm _, hm _, ?_, ?_⟩ <;>
    · rw [Finset.sum_apply]
      refine (Fin.sum_univ_two (fun i : Fin 2 => m i * vecR 2 [[a, b], [c, d]][i] _)).trans ?_
      simp [vecR]
  · rintro ⟨s, t, hs, ht, e0, e1⟩
    refine ⟨(![s, t] : Fin 2 → ℝ), ?_, ?_⟩
    · intro i
      change Fin 2 at i
      fin_cases i <;> simpa
    · funext j
      rw [Finset.sum_apply]
      refine Eq.trans ?_ (Fin.sum_univ_two (fun i : Fin 2 => (![s, t] : Fin 2 → ℝ) i * vecR 2 [[a, b], [c, d]][i] j)).symm
      fin_cases j
      · simpa [vecR] using e0
      · simpa [vecR] using e1

theorem ex_tangent : TangentCones 2 exCones := by
  refine ⟨by simp [exCones], ?_, ?_, ?_, ?_⟩
  · intro c hc
    simp only [exCones, List.mem_cons, List.not_mem_nil, or_false] at hc
    rcases hc with rfl | rfl | rfl <;>
      exact ⟨rfl, by decide, fun h => by simp [ofEntries] at h, fun h => by simp [ofEntries] at h⟩
  · simp only [exCones, List.map_cons, List.map_nil, List.nodup_cons, List.mem_cons, List.not_mem_nil, or_false, not_or, not_false_eq_true,
      List.nodup_nil, and_true]
    refine ⟨⟨?_, ?_⟩, ?_⟩ <;> intro h
    · have := congrFun h 0; norm_num [pointR, ofEntries] at this
    · have := congrFun h 1; norm_num [pointR, ofEntries] at this
    · have := congrFun h 0; norm_num [pointR, ofEntries] at this
  · intro c hc
    rw [ex_polytope, mem_extremePoints]
    simp only [exCones, List.mem_cons, List.not_mem_nil, or_false] at hc
    have key : ∀ (p x y : Fin 2 → ℝ) (α β : ℝ), 0 < α → 0 < β → α + β = 1 → α • x + β • y = p →
        (∀ j, α * x j + β * y j = p j) := by
      intro p x y α β _ _ _ h j
      rw [← h]; simp
    rcases hc with rfl | rfl | rfl
    · refine ⟨by norm_num [pointR, ofEntries], ?_⟩
      rintro x ⟨a0, a1, a2⟩ y ⟨b0, b1, b2⟩ ⟨α, β, hα, hβ, hs, h⟩
      have h0 := key _ x y α β hα hβ hs h 0
      have h1 := key _ x y α β hα hβ hs h 1
      norm_num [pointR, ofEntries] at h0 h1
      have e0 : x 0 = 0 := by nlinarith [mul_nonneg hα.le a0, mul_nonneg hβ.le b0]
      have e1 : x 1 = 0 := by nlinarith [mul_nonneg hα.le a1, mul_nonneg hβ.le b1]
      have f0 : y 0 = 0 := by nlinarith [mul_nonneg hα.le a0, mul_nonneg hβ.le b0]
      have f1 : y 1 = 0 := by nlinarith [mul_nonneg hα.le a1, mul_nonneg hβ.le b1]
      refine ⟨?_, ?_⟩ <;> funext j <;> fin_cases j <;> simp [pointR, ofEntries, e0, e1, f0, f1]
    · refine ⟨by norm_num [pointR, ofEntries], ?_⟩
      rintro x ⟨a0, a1, a2⟩ y ⟨b0, b1, b2⟩ ⟨α, β, hα, hβ, hs, h⟩
      have h0 := key _ x y α β hα hβ hs h 0
      have h1 := key _ x y α β hα hβ hs h 1
      norm_num [pointR, ofEntries] at h0 h1
      have hx := mul_nonneg hα.le a1
      have hy := mul_nonneg hβ.le b1
      have e1 : x 1 = 0 := by
        have : α * x 1 = 0 := by linarith
        rcases mul_eq_zero.1 this with h | h
        · linarith
        · exact h
      have f1 : y 1 = 0 := by
        have : β * y 1 = 0 := by linarith
        rcases mul_eq_zero.1 this with h | h
        · linarith
        · exact h
      have hx2 := mul_nonneg hα.le (show 0 ≤ 1 / 2 - x 0 by linarith)
      have hy2 := mul_nonneg hβ.le (show 0 ≤ 1 / 2 - y 0 by linarith)
      have e0 : x 0 = 1 / 2 := by
        have : α * (1 / 2 - x 0) = 0 := by nlinarith
        rcases mul_eq_zero.1 this with h | h <;> linarith
      have f0 : y 0 = 1 / 2 := by
        have : β * (1 / 2 - y 0) = 0 := by nlinarith
        rcases mul_eq_zero.1 this with h | h <;> linarith
      refine ⟨?_, ?_⟩ <;> funext j <;> fin_cases j <;> simp [pointR, ofEntries, e0, e1, f0, f1]
    · refine ⟨by norm_num [pointR, ofEntries], ?_⟩
      rintro x ⟨a0, a1, a2⟩ y ⟨b0, b1, b2⟩ ⟨α, β, hα, hβ, hs, h⟩
      have h0 := key _ x y α β hα hβ hs h 0
      have h1 := key _ x y α β hα hβ hs h 1
      norm_num [pointR, ofEntries] at h0 h1
      have hx := mul_nonneg hα.le a0
      have hy := mul_nonneg hβ.le b0
      have e0 : x 0 = 0 := by
        have : α * x 0 = 0 := by linarith
        rcases mul_eq_zero.1 this with h | h
        · linarith
        · exact h
      have f0 : y 0 = 0 := by
        have : β * y 0 = 0 := by linarith
        rcases mul_eq_zero.1 this with h | h
        · linarith
        · exact h
      have hx2 := mul_nonneg hα.le (show 0 ≤ 1 / 3 - x 1 by linarith)
      have hy2 := mul_nonneg hβ.le (show 0 ≤ 1 / 3 - y 1 by linarith)
      have e1 : x 1 = 1 / 3 := by
        have : α * (1 / 3 - x 1) = 0 := by nlinarith
        rcases mul_eq_zero.1 this with h | h <;> linarith
      have f1 : y 1 = 1 / 3 := by
        have : β * (1 / 3 - y 1) = 0 := by nlinarith
        rcases mul_eq_zero.1 this with h | h <;> linarith
      refine ⟨?_, ?_⟩ <;> funext j <;> fin_cases j <;> simp [pointR, ofEntries, e0, e1, f0, f1]
  · intro c hc
    rw [ex_polytope]
    simp only [exCones, List.mem_cons, List.not_mem_nil, or_false] at hc
    have hmul : ∀ t : ℝ, 0 < t → ∀ z, 0 ≤ t * z → 0 ≤ z := fun t ht z h => (mul_nonneg_iff_of_pos_left ht).1 h
    rcases hc with rfl | rfl | rfl
    · rw [rayCone_two]
      ext y
      simp only [mem_ofPred_eq, Pi.add_apply, Pi.smul_apply, smul_eq_mul]
      norm_num [pointR, ofEntries]
      constructor
      · rintro ⟨hs, ht⟩
        have : (0:ℝ) < 2 * y 0 + 3 * y 1 + 1 := by positivity
        refine ⟨1 / (2 * y 0 + 3 * y 1 + 1), by positivity, by positivity, by positivity, ?_⟩
        have e : 2 * (1 / (2 * y 0 + 3 * y 1 + 1) * y 0) + 3 * (1 / (2 * y 0 + 3 * y 1 + 1) * y 1) =
          (2 * y 0 + 3 * y 1) / (2 * y 0 + 3 * y 1 + 1) := by ring
        rw [e, div_le_one this]; linarith
      · rintro ⟨t, ht, h0, h1, h2⟩
        exact ⟨hmul t ht _ h0, hmul t ht _ h1⟩
    · rw [rayCone_two]
      ext y
      simp only [mem_ofPred_eq, Pi.add_apply, Pi.smul_apply, smul_eq_mul]
      norm_num [pointR, ofEntries]
      constructor
      · rintro ⟨s, hs, t, ht, e0, e1⟩
        have hp : (0:ℝ) < 2 * (s + 3 * t + 1) := by positivity
        refine ⟨1 / (2 * (s + 3 * t + 1)), by positivity, ?_, ?_, ?_⟩
        · rw [e0]
          have : (1:ℝ) / 2 + 1 / (2 * (s + 3 * t + 1)) * (-s + -(t * 3)) = 1 / (2 * (s + 3 * t + 1)) := by field_simp; ring
          rw [this]; positivity
        · rw [e1]; positivity
        · rw [e0, e1]
          have : (0:ℝ) ≤ 1 / (2 * (s + 3 * t + 1)) * s := by positivity
          nlinarith
      · rintro ⟨t, ht, h0, h1, h2⟩
        have g1 := hmul t ht _ h1
        have g2 : 0 ≤ -(2 * y 0 + 3 * y 1) := hmul t ht _ (by nlinarith)
        refine ⟨-(2 * y 0 + 3 * y 1) / 2, by linarith, y 1 / 2, by linarith, ?_, ?_⟩ <;> ring
    · rw [rayCone_two]
      ext y
      simp only [mem_ofPred_eq, Pi.add_apply, Pi.smul_apply, smul_eq_mul]
      norm_num [pointR, ofEntries]
      constructor
      · rintro ⟨s, hs, t, ht, e0, e1⟩
        have hp : (0:ℝ) < 3 * (s + 2 * t + 1) := by positivity
        refine ⟨1 / (3 * (s + 2 * t + 1)), by positivity, ?_, ?_, ?_⟩
        · rw [e0]; positivity
        · rw [e1]
          have : (1:ℝ) / 3 + 1 / (3 * (s + 2 * t + 1)) * (-s + -(t * 2)) = 1 / (3 * (s + 2 * t + 1)) := by field_simp; ring
          rw [this]; positivity
        · rw [e0, e1]
          have : (0:ℝ) ≤ 1 / (3 * (s + 2 * t + 1)) * s := by positivity
          nlinarith
      · rintro ⟨t, ht, h0, h1, h2⟩
        have g1 := hmul t ht _ h0
        have g2 : 0 ≤ -(2 * y 0 + 3 * y 1) := hmul t ht _ (by nlinarith)
        refine ⟨-(2 * y 0 + 3 * y 1) / 3, by linarith, y 0 / 3, by linarith, ?_, ?_⟩ <;> ring

/-- the engine that returns its argument is correct for simplicial cones -/
theorem ex_engine : TriangulatesCones (fun _ c => [c]) 2 exCones := by
  intro i c hc w _ _
  have hm := List.mem_of_getElem? hc
  refine ⟨by simp, ?_, ?_, ?_, ?_, by simp, by simp⟩ <;>
    (simp only [exCones, List.mem_cons, List.not_mem_nil, or_false] at hm
     rcases hm with rfl | rfl | rfl <;> simp <;> decide +kernel)

/-- C55 applies to the triangle: with the vector (1, 2) the program returns 1/12, its area. -/
example : ((findVolume (fun _ c => [c]) .cone [1, 2] (ofCones 2 exCones)).map Prod.fst) = some (1 / 12) := by decide +kernel

example : (volume (polytope 2 exCones)).toReal = 1 / 12 := by
  have h : ∃ p', findVolume (fun _ c => [c]) .cone [1, 2] (ofCones 2 exCones) = some (1 / 12, p') := by
    have : ((findVolume (fun _ c => [c]) .cone [1, 2] (ofCones 2 exCones)).map Prod.fst) = some (1 / 12) := by decide +kernel
    obtain ⟨⟨r, p⟩, h1, h2⟩ := Option.map_eq_some_iff.1 this
    exact ⟨p, by rw [h1]; simp only at h2; rw [h2]⟩
  obtain ⟨p', h⟩ := h
  have := c55_volume _ 2 exCones ex_tangent ex_engine [1, 2] _ p' h
  rw [← this]; norm_num

end Verif.Valuation
