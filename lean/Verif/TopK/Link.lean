import Verif.TopK.Quasi
import Verif.TopK.Laurent

/-!
# From sums over roots of unity to the series of one `f`
-/

namespace Verif.TopK

open PowerSeries

variable {n : ℕ}

/-- `x^{|l|} · ∑_z z^{-t} / ∏_{a ∈ l} (1 - z^a exp(a x))`. -/
noncomputable def classL (l : List ℕ) (f : ℕ) (t : ℤ) : ℂ⟦X⟧ :=
  ∑ z ∈ roots f, C (z ^ (-t)) * (l.map fun a : ℕ => pole (z ^ a) (a : ℂ)).prod

theorem classL_ofFn (α : Fin n → ℕ) (f : ℕ) (t : ℤ) : classL (List.ofFn α) f t = classSeries α f t := by
  unfold classL classSeries genPole
  simp only [List.map_ofFn, List.prod_ofFn, Function.comp]

theorem prod_filter_split {M : Type*} [CommMonoid M] {β : Type*} (l : List β) (p : β → Bool) (g : β → M) :
    (l.map g).prod = ((l.filter p).map g).prod * ((l.filter fun a => !p a).map g).prod := by
  induction l with
  | nil => simp
  | cons a l ih =>
    by_cases h : p a
    · simp [h, ih, mul_assoc]
    · simp [h, ih, mul_left_comm]

/-- The factors with `f ∣ a` do not depend on the root of unity. -/
theorem classL_split (l : List ℕ) (f : ℕ) (hf : 0 < f) (t : ℤ) :
    classL l f t = ((l.filter fun a => f ∣ a).map fun a : ℕ => pole 1 (a : ℂ)).prod * classL (l.filter fun a => ¬ f ∣ a) f t := by
  unfold classL
  rw [Finset.mul_sum]
  refine Finset.sum_congr rfl fun z hz => ?_
  rw [prod_filter_split l (fun a => decide (f ∣ a)), mul_left_comm]
  have h1 : ((l.filter fun a => f ∣ a).map fun a : ℕ => pole (z ^ a) (a : ℂ)) = ((l.filter fun a => f ∣ a).map fun a : ℕ => pole 1 (a : ℂ)) := by
    refine List.map_congr_left fun a ha => ?_
    have : f ∣ a := by simpa using (List.mem_filter.1 ha).2
    obtain ⟨c, rfl⟩ := this
    rw [pow_mul, (mem_roots hf z).1 hz, one_pow]
  rw [h1]
  simp

/-- The rational series of the box points of `a` modulo `f`. -/
noncomputable def boxSeries (a : Fin n → ℤ) (f : ℕ) (t : ℤ) : ℚ⟦X⟧ :=
  (∑ y ∈ boxPts a f t, ex ((∑ i, a i * y i : ℤ) : ℚ)) * ∏ i, pole 1 ((f : ℚ) * a i)

/-- The inclusion of the rationals, coefficientwise. -/
noncomputable def toC : ℚ⟦X⟧ →+* ℂ⟦X⟧ := PowerSeries.map (algebraMap ℚ ℂ)

theorem toC_ex (q : ℚ) : toC (ex q) = ex (q : ℂ) := by
  ext m
  simp [toC, coeff_ex]

theorem toC_td (q : ℚ) : toC (td q) = td (q : ℂ) := by
  ext m
  simp [toC, coeff_td]

theorem toC_pole_one (q : ℚ) (hq : q ≠ 0) : toC (pole 1 q) = pole 1 (q : ℂ) := by
  have h1 := congrArg toC (pole_one q hq)
  have hq' : (q : ℂ) ≠ 0 := by exact_mod_cast hq
  rw [map_mul, map_sub, map_one, toC_ex] at h1
  have h2 := pole_one (q : ℂ) hq'
  have h3 : toC (X : ℚ⟦X⟧) = X := by simp [toC]
  rw [h3, ← h2] at h1
  exact mul_left_cancel₀ (one_sub_ex_ne _ hq') h1

theorem coeff_toC (S : ℚ⟦X⟧) (j : ℕ) : coeff j (toC S) = ((coeff j S : ℚ) : ℂ) := by
  simp [toC]

theorem classSeries_box (α : Fin n → ℕ) (hα : ∀ i, 0 < α i) (f : ℕ) (hf : 0 < f) (t : ℤ) :
    classSeries α f t = C (f : ℂ) * toC (boxSeries (fun i => (α i : ℤ)) f t) := by
  have hfc : (f : ℂ) ≠ 0 := by exact_mod_cast hf.ne'
  have hαc : ∀ i, (α i : ℂ) ≠ 0 := fun i => by exact_mod_cast (hα i).ne'
  have h1 := classSeries_clear α hα f hf (fun _ => f) (fun i => Dvd.intro_left _ rfl) t
  have hne : (∏ i, (1 - ex ((α i * f : ℕ) : ℂ)) : ℂ⟦X⟧) ≠ 0 := by
    rw [Finset.prod_ne_zero_iff]
    intro i _
    apply one_sub_ex_ne
    push_cast
    exact mul_ne_zero (hαc i) hfc
  apply mul_left_cancel₀ hne
  rw [h1]
  have h2 : toC (boxSeries (fun i => (α i : ℤ)) f t) =
      (∑ y ∈ boxPts (fun i => (α i : ℤ)) f t, ex ((∑ i, (α i : ℤ) * y i : ℤ) : ℂ)) * ∏ i, pole 1 ((α i * f : ℕ) : ℂ) := by
    unfold boxSeries
    rw [map_mul, map_sum, map_prod]
    congr 1
    · refine Finset.sum_congr rfl fun y _ => ?_
      rw [toC_ex]
      push_cast
      rfl
    · refine Finset.prod_congr rfl fun i _ => ?_
      rw [toC_pole_one]
      · push_cast
        rw [mul_comm]
      · have : (α i : ℚ) ≠ 0 := by exact_mod_cast (hα i).ne'
        have : (f : ℚ) ≠ 0 := by exact_mod_cast hf.ne'
        push_cast
        positivity
  have h3 : (∏ i, (1 - ex ((α i * f : ℕ) : ℂ))) * ∏ i, pole 1 ((α i * f : ℕ) : ℂ) = X ^ n := by
    rw [← Finset.prod_mul_distrib, Finset.prod_congr rfl fun i _ => pole_one _ (by push_cast; exact mul_ne_zero (hαc i) hfc)]
    simp
  have h4 : (∑ y ∈ (Fintype.piFinset fun _ : Fin n => Finset.range f) with ((f : ℤ) ∣ ((∑ i, α i * y i : ℕ) : ℤ) - t),
      ex ((∑ i, α i * y i : ℕ) : ℂ)) = ∑ y ∈ boxPts (fun i => (α i : ℤ)) f t, ex ((∑ i, (α i : ℤ) * y i : ℤ) : ℂ) := by
    refine Finset.sum_bij' (fun y _ => fun i => (y i : ℤ)) (fun y _ => fun i => (y i).toNat) ?_ ?_ ?_ ?_ ?_
    · intro y hy
      simp only [Finset.mem_filter, Fintype.mem_piFinset, Finset.mem_range] at hy
      rw [mem_boxPts]
      refine ⟨fun j => ⟨by positivity, by exact_mod_cast hy.1 j⟩, ?_⟩
      have := hy.2
      push_cast at this
      exact this
    · intro y hy
      rw [mem_boxPts] at hy
      simp only [Finset.mem_filter, Fintype.mem_piFinset, Finset.mem_range]
      refine ⟨fun j => by have := hy.1 j; omega, ?_⟩
      have : ∀ i, ((y i).toNat : ℤ) = y i := fun i => Int.toNat_of_nonneg (hy.1 i).1
      push_cast
      simp only [this] at *
      simpa [fun i => max_eq_left (hy.1 i).1] using hy.2
    · intro y _; funext i; simp
    · intro y hy
      rw [mem_boxPts] at hy
      funext i
      exact Int.toNat_of_nonneg (hy.1 i).1
    · intro y _
      push_cast
      rfl
  rw [← Finset.mul_sum, h4, h2]
  linear_combination -(C (f : ℂ) * ∑ y ∈ boxPts (fun i => (α i : ℤ)) f t, ex ((∑ i, (α i : ℤ) * y i : ℤ) : ℂ)) * h3

end Verif.TopK
