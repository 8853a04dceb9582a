import Mathlib.MeasureTheory.Constructions.Pi
import Mathlib.MeasureTheory.Integral.Prod
import Mathlib.MeasureTheory.Integral.IntegralEqImproper
import Mathlib.MeasureTheory.Measure.Lebesgue.EqHaar
import Mathlib.Analysis.SpecialFunctions.Integrals.Basic
import Mathlib.Algebra.BigOperators.Fin
import Mathlib.Tactic.FieldSimp

/-! Lebesgue integrals of monomials in barycentric coordinates over the corner simplex (mathematics used in the specifications). -/

namespace Verif.Measure

open MeasureTheory Set

/-- `∫_0^t y^a (t-y)^b dy = a! b! / (a+b+1)! t^(a+b+1)` -/
theorem beta_nat (t : ℝ) (a : ℕ) : ∀ b : ℕ, ∫ y in (0:ℝ)..t, y ^ a * (t - y) ^ b =
    (a.factorial * b.factorial : ℝ) / ((a + b + 1).factorial : ℝ) * t ^ (a + b + 1) := by
  induction a with
  | zero =>
    intro b
    have h1 : ∫ y in (0:ℝ)..t, y ^ 0 * (t - y) ^ b = ∫ y in (0:ℝ)..t, (fun z : ℝ => z ^ b) (t - y) := by simp
    rw [h1, intervalIntegral.integral_comp_sub_left (fun z : ℝ => z ^ b) t, integral_pow]
    simp only [sub_self, sub_zero, zero_add, Nat.factorial_zero, Nat.cast_one, one_mul, ne_eq, Nat.add_eq_zero_iff, one_ne_zero, and_false, not_false_eq_true, zero_pow, sub_zero]
    rw [Nat.factorial_succ]
    have : (b.factorial : ℝ) ≠ 0 := by exact_mod_cast b.factorial_ne_zero
    have : (b : ℝ) + 1 ≠ 0 := by positivity
    push_cast
    field_simp
  | succ a ih =>
    intro b
    have hb : (b : ℝ) + 1 ≠ 0 := by positivity
    have hu : ∀ x ∈ uIcc 0 t, HasDerivAt (fun y : ℝ => y ^ (a + 1)) (((a : ℝ) + 1) * x ^ a) x := by
      intro x _
      simpa using hasDerivAt_pow (a + 1) x
    have hv : ∀ x ∈ uIcc 0 t, HasDerivAt (fun y : ℝ => -(t - y) ^ (b + 1) / ((b : ℝ) + 1)) ((t - x) ^ b) x := by
      intro x _
      have h := ((((hasDerivAt_id x).const_sub t).pow (b + 1)).neg).div_const ((b : ℝ) + 1)
      have e1 : -(((b + 1 : ℕ) : ℝ) * (t - id x) ^ (b + 1 - 1) * -1) / ((b : ℝ) + 1) = (t - x) ^ b := by
        simp
        field_simp
      rw [e1] at h
      exact h
    have hpart := intervalIntegral.integral_mul_deriv_eq_deriv_mul hu hv
      (by apply Continuous.intervalIntegrable; fun_prop) (by apply Continuous.intervalIntegrable; fun_prop)
    rw [hpart]
    have h2 : ∀ y : ℝ, ((a : ℝ) + 1) * y ^ a * (-(t - y) ^ (b + 1) / ((b : ℝ) + 1)) = -(((a : ℝ) + 1) / ((b : ℝ) + 1)) * (y ^ a * (t - y) ^ (b + 1)) := by
      intro y; field_simp
    simp_rw [h2]
    rw [intervalIntegral.integral_const_mul, ih (b + 1)]
    have e : a + 1 + b + 1 = a + (b + 1) + 1 := by ring
    rw [e, Nat.factorial_succ a, Nat.factorial_succ b]
    have : ((a + (b + 1) + 1).factorial : ℝ) ≠ 0 := by exact_mod_cast Nat.factorial_ne_zero _
    push_cast
    simp
    field_simp

/-- the corner simplex of size `t` -/
def corner (d : ℕ) (t : ℝ) : Set (Fin d → ℝ) := {x | (∀ i, 0 ≤ x i) ∧ ∑ i, x i ≤ t}

theorem isClosed_corner (d : ℕ) (t : ℝ) : IsClosed (corner d t) := by
  have : corner d t = (⋂ i, {x : Fin d → ℝ | 0 ≤ x i}) ∩ {x | ∑ i, x i ≤ t} := by
    ext x; simp [corner]
  rw [this]
  exact (isClosed_iInter fun i => isClosed_le continuous_const (continuous_apply i)).inter
    (isClosed_le (by fun_prop) continuous_const)

theorem isCompact_corner (d : ℕ) (t : ℝ) : IsCompact (corner d t) := by
  apply IsCompact.of_isClosed_subset (isCompact_univ_pi fun _ : Fin d => isCompact_Icc (a := (0:ℝ)) (b := t)) (isClosed_corner d t)
  intro x hx i _
  refine ⟨hx.1 i, le_trans ?_ hx.2⟩
  exact Finset.single_le_sum (f := x) (fun j _ => hx.1 j) (Finset.mem_univ i)

/-- Dirichlet's integral -/
theorem dirichlet (d : ℕ) : ∀ (a0 : ℕ) (a : Fin d → ℕ) (t : ℝ), 0 ≤ t →
    ∫ x in corner d t, (t - ∑ i, x i) ^ a0 * ∏ i, x i ^ a i =
      (a0.factorial * ∏ i, (a i).factorial : ℝ) / ((a0 + ∑ i, a i + d).factorial : ℝ) * t ^ (a0 + ∑ i, a i + d) := by
  induction d with
  | zero =>
    intro a0 a t ht
    have h1 : corner 0 t = univ := by ext x; simp [corner, ht]
    have h2 : (volume : Measure (Fin 0 → ℝ)) = Measure.dirac default := by
      rw [volume_pi]; exact Measure.pi_of_empty _ _
    rw [h1, Measure.restrict_univ, h2, integral_dirac]
    simp
    have : (a0.factorial : ℝ) ≠ 0 := by exact_mod_cast a0.factorial_ne_zero
    field_simp
  | succ d ih =>
    intro a0 a t ht
    let f : (Fin (d + 1) → ℝ) → ℝ := fun x => (t - ∑ i, x i) ^ a0 * ∏ i, x i ^ a i
    have hfc : Continuous f := by unfold f; fun_prop
    have hint : IntegrableOn f (corner (d + 1) t) := hfc.continuousOn.integrableOn_compact (isCompact_corner _ _)
    have hm := (isClosed_corner (d + 1) t).measurableSet
    have mp := (volume_preserving_piFinSuccAbove (fun _ : Fin (d + 1) => ℝ) 0).symm
    rw [← integral_indicator hm]
    rw [← mp.integral_comp (MeasurableEquiv.measurableEmbedding _)]
    have hint2 : Integrable (fun p : ℝ × (Fin d → ℝ) => (corner (d + 1) t).indicator f
        ((MeasurableEquiv.piFinSuccAbove (fun _ : Fin (d + 1) => ℝ) 0).symm p)) (volume.prod volume) :=
      mp.integrable_comp_of_integrable (hint.integrable_indicator hm)
    have hvol : (volume : Measure (ℝ × (Fin d → ℝ))) = volume.prod volume := rfl
    rw [hvol, integral_prod _ hint2]
    have hin : ∀ y : ℝ, (∫ z : Fin d → ℝ, (corner (d + 1) t).indicator f
        ((MeasurableEquiv.piFinSuccAbove (fun _ : Fin (d + 1) => ℝ) 0).symm (y, z))) =
        (Icc 0 t).indicator (fun y => y ^ a 0 * ((t - y) ^ (a0 + ∑ i : Fin d, a i.succ + d)) *
          ((a0.factorial * ∏ i : Fin d, (a i.succ).factorial : ℝ) / ((a0 + ∑ i : Fin d, a i.succ + d).factorial : ℝ))) y := by
      intro y
      have hsym : ∀ z : Fin d → ℝ, (MeasurableEquiv.piFinSuccAbove (fun _ : Fin (d + 1) => ℝ) 0).symm (y, z) = Fin.cons y z := by
        intro z
        simp [MeasurableEquiv.piFinSuccAbove, Fin.insertNthEquiv]
      simp_rw [hsym]
      by_cases hy : y ∈ Icc 0 t
      · rw [indicator_of_mem hy]
        have h3 : ∀ z : Fin d → ℝ, (corner (d + 1) t).indicator f (Fin.cons y z) =
            (corner d (t - y)).indicator (fun z => y ^ a 0 * ((t - y - ∑ i, z i) ^ a0 * ∏ i, z i ^ a i.succ)) z := by
          intro z
          have hiff : (Fin.cons y z : Fin (d + 1) → ℝ) ∈ corner (d + 1) t ↔ z ∈ corner d (t - y) := by
            simp only [corner, mem_ofPred_eq, Fin.forall_fin_succ, Fin.cons_zero, Fin.cons_succ, Fin.sum_univ_succ]
            constructor
            · rintro ⟨⟨_, h⟩, h'⟩; exact ⟨h, by linarith⟩
            · rintro ⟨h, h'⟩; exact ⟨⟨hy.1, h⟩, by linarith⟩
          by_cases hz : z ∈ corner d (t - y)
          · rw [indicator_of_mem (hiff.2 hz), indicator_of_mem hz]
            simp only [f, Fin.sum_univ_succ, Fin.prod_univ_succ, Fin.cons_zero, Fin.cons_succ]
            rw [sub_sub]; ring
          · rw [indicator_of_notMem (fun h => hz (hiff.1 h)), indicator_of_notMem hz]
        simp_rw [h3]
        rw [integral_indicator (isClosed_corner _ _).measurableSet, integral_const_mul, ih a0 (fun i => a i.succ) (t - y) (by linarith [hy.2])]
        ring
      · rw [indicator_of_notMem hy]
        have : ∀ z : Fin d → ℝ, (corner (d + 1) t).indicator f (Fin.cons y z) = 0 := by
          intro z
          apply indicator_of_notMem
          intro h
          apply hy
          simp only [corner, mem_ofPred_eq, Fin.forall_fin_succ, Fin.cons_zero, Fin.cons_succ, Fin.sum_univ_succ] at h
          have : 0 ≤ ∑ i, z i := Finset.sum_nonneg fun i _ => h.1.2 i
          exact ⟨h.1.1, by linarith [h.2]⟩
        simp [this]
    simp_rw [hin]
    rw [integral_indicator measurableSet_Icc, integral_Icc_eq_integral_Ioc, ← intervalIntegral.integral_of_le ht,
      intervalIntegral.integral_mul_const, beta_nat]
    rw [Fin.sum_univ_succ, Fin.prod_univ_succ]
    have e : a 0 + (a0 + ∑ i : Fin d, a i.succ + d) + 1 = a0 + (a 0 + ∑ i : Fin d, a i.succ) + (d + 1) := by ring
    rw [e]
    have : ((a0 + ∑ i : Fin d, a i.succ + d).factorial : ℝ) ≠ 0 := by exact_mod_cast Nat.factorial_ne_zero _
    push_cast
    field_simp

end Verif.Measure
