import Verif.TopK.Model
import Verif.TopK.Laurent
import Verif.Knapsack.Bernoulli

/-!
# Truncated series in `ε` and `x`
-/

namespace Verif.TopK

open PowerSeries

/-- The series denoted by a list of terms at `T = t`. -/
noncomputable def ser (g : GMS) (t : ℤ) : Reps⟦X⟧ :=
  (g.map fun r => (C (C (r.coef t) * (X : Reps) ^ r.e) : Reps⟦X⟧) * X ^ r.x).sum

theorem ser_nil (t : ℤ) : ser [] t = 0 := rfl

theorem ser_cons (r : Term) (g : GMS) (t : ℤ) : ser (r :: g) t = C (C (r.coef t) * (X : Reps) ^ r.e) * X ^ r.x + ser g t := by simp [ser]

theorem ser_append (a b : GMS) (t : ℤ) : ser (a ++ b) t = ser a t + ser b t := by simp [ser]

theorem coeff_term (c : ℚ) (e x i j : ℕ) : coeff i (coeff j ((C (C c * (X : Reps) ^ e) : Reps⟦X⟧) * X ^ x)) = if e = i ∧ x = j then c else 0 := by
  rw [coeff_C_mul, coeff_X_pow]
  by_cases hj : j = x
  · subst hj
    rw [if_pos rfl, mul_one, coeff_C_mul, coeff_X_pow]
    by_cases hi : i = e
    · simp [hi]
    · simp [hi, Ne.symm hi]
  · simp [hj, Ne.symm hj]

theorem coeff_ser (g : GMS) (t : ℤ) (i j : ℕ) :
    coeff i (coeff j (ser g t)) = ((g.filter fun r => r.e = i ∧ r.x = j).map fun r => r.coef t).sum := by
  induction g with
  | nil => simp [ser_nil]
  | cons r g ih =>
    rw [ser_cons, map_add, map_add, ih, coeff_term]
    by_cases h : r.e = i ∧ r.x = j
    · rw [if_pos h, List.filter_cons_of_pos (by simpa using h)]; simp
    · rw [if_neg h, List.filter_cons_of_neg (by simpa using h), zero_add]

/-- All products of two lists of terms. -/
def mulAll (a b : GMS) : GMS := a.flatMap fun s => b.map fun r => (⟨s.e + r.e, s.x + r.x, fun t => s.coef t * r.coef t⟩ : Term)

theorem ser_map_mul (s : Term) (b : GMS) (t : ℤ) :
    ser (b.map fun r => (⟨s.e + r.e, s.x + r.x, fun t => s.coef t * r.coef t⟩ : Term)) t = C (C (s.coef t) * (X : Reps) ^ s.e) * X ^ s.x * ser b t := by
  induction b with
  | nil => simp [ser_nil]
  | cons r b ih =>
    rw [List.map_cons, ser_cons, ih, ser_cons, mul_add]
    congr 1
    simp only [map_mul, map_pow, pow_add]
    ring

theorem ser_mulAll (a b : GMS) (t : ℤ) : ser (mulAll a b) t = ser a t * ser b t := by
  induction a with
  | nil => simp [mulAll, ser_nil]
  | cons s a ih =>
    rw [ser_cons, add_mul, ← ih, ← ser_map_mul, ← ser_append]
    rfl

theorem coeff_mul_window (a b : GMS) (e0 e1 x0 x1 : ℕ) (t : ℤ) (i j : ℕ) :
    coeff i (coeff j (ser (mul a b e0 e1 x0 x1) t)) =
      if e0 ≤ i ∧ i ≤ e1 ∧ x0 ≤ j ∧ j ≤ x1 then coeff i (coeff j (ser a t * ser b t)) else 0 := by
  rw [← ser_mulAll, coeff_ser, coeff_ser]
  unfold mul
  rw [List.filter_filter]
  change (List.map _ (List.filter _ (mulAll a b))).sum = _
  split
  · rename_i h
    congr 2
    refine List.filter_congr fun r _ => ?_
    by_cases h1 : r.e = i ∧ r.x = j
    · simp [h1, h]
    · simp [h1]
  · rename_i h
    rw [List.filter_eq_nil_iff.2]
    · rfl
    · intro r _ h1
      simp only [Bool.and_eq_true, decide_eq_true_eq] at h1
      obtain ⟨⟨rfl, rfl⟩, h2⟩ := h1
      exact h h2

/-- Two series agree up to `ε^P` and `x^k`. -/
def Agree (P k : ℕ) (r r' : Reps⟦X⟧) : Prop := ∀ j ≤ k, ∀ i ≤ P, coeff i (coeff j r) = coeff i (coeff j r')

theorem Agree.refl (P k : ℕ) (r : Reps⟦X⟧) : Agree P k r r := fun _ _ _ _ => rfl

theorem Agree.trans {P k : ℕ} {r s u : Reps⟦X⟧} (h : Agree P k r s) (h' : Agree P k s u) : Agree P k r u :=
  fun j hj i hi => (h j hj i hi).trans (h' j hj i hi)

theorem Agree.symm {P k : ℕ} {r s : Reps⟦X⟧} (h : Agree P k r s) : Agree P k s r := fun j hj i hi => (h j hj i hi).symm

theorem coeff_coeff_mul (r s : Reps⟦X⟧) (i j : ℕ) :
    coeff i (coeff j (r * s)) =
      ∑ p ∈ Finset.HasAntidiagonal.antidiagonal j, ∑ q ∈ Finset.HasAntidiagonal.antidiagonal i, coeff q.1 (coeff p.1 r) * coeff q.2 (coeff p.2 s) := by
  rw [coeff_mul, map_sum]
  exact Finset.sum_congr rfl fun p _ => coeff_mul ..

theorem Agree.mul {P k : ℕ} {r r' s s' : Reps⟦X⟧} (h : Agree P k r r') (h' : Agree P k s s') : Agree P k (r * s) (r' * s') := by
  intro j hj i hi
  rw [coeff_coeff_mul, coeff_coeff_mul]
  refine Finset.sum_congr rfl fun p hp => Finset.sum_congr rfl fun q hq => ?_
  have h1 := Finset.HasAntidiagonal.mem_antidiagonal.1 hp
  have h2 := Finset.HasAntidiagonal.mem_antidiagonal.1 hq
  rw [h p.1 (by omega) q.1 (by omega), h' p.2 (by omega) q.2 (by omega)]

theorem mul_agree (a b : GMS) (P k : ℕ) (t : ℤ) : Agree P k (ser (mul a b 0 P 0 k) t) (ser a t * ser b t) := by
  intro j hj i hi
  rw [coeff_mul_window, if_pos ⟨Nat.zero_le _, hi, Nat.zero_le _, hj⟩]

/-- The exponents of a product lie in its window. -/
theorem mem_mul {a b : GMS} {e0 e1 x0 x1 : ℕ} {r : Term} (h : r ∈ mul a b e0 e1 x0 x1) : e0 ≤ r.e ∧ r.e ≤ e1 ∧ x0 ≤ r.x ∧ r.x ≤ x1 := by
  unfold mul at h
  simpa using (List.mem_filter.1 h).2

/-- The sum of the coefficients of `x^j`, whatever the power of `ε`. -/
def xcoef (g : GMS) (t : ℤ) (j : ℕ) : ℚ := ((g.filter fun r => r.x = j).map fun r => r.coef t).sum

theorem xcoef_append (a b : GMS) (t : ℤ) (j : ℕ) : xcoef (a ++ b) t j = xcoef a t j + xcoef b t j := by simp [xcoef]

theorem xcoef_eq (g : GMS) (t : ℤ) (P j : ℕ) (h : ∀ r ∈ g, r.e = P) : xcoef g t j = coeff P (coeff j (ser g t)) := by
  rw [coeff_ser]
  unfold xcoef
  congr 2
  refine List.filter_congr fun r hr => ?_
  simp [h r hr]

/-! ## The factors -/

theorem coeff_lin_pow (a e : ℚ) (m i : ℕ) : coeff i (lin a e ^ m) = if i ≤ m then (m.choose i : ℚ) * e ^ i * a ^ (m - i) else 0 := by
  unfold lin
  rw [add_comm, add_pow, map_sum]
  have h : ∀ x ∈ Finset.range (m + 1), coeff i ((C e * X) ^ x * (C a : Reps) ^ (m - x) * (m.choose x : Reps)) =
      if x = i then (m.choose i : ℚ) * e ^ i * a ^ (m - i) else 0 := by
    intro x _
    have : ((C e * X) ^ x * (C a : Reps) ^ (m - x) * (m.choose x : Reps)) = C (e ^ x * a ^ (m - x) * (m.choose x : ℚ)) * X ^ x := by
      rw [mul_pow, map_mul, map_mul, map_pow, map_pow, map_natCast]
      ring
    rw [this, coeff_C_mul, coeff_X_pow]
    by_cases hx : x = i
    · subst hx; simp; ring
    · rw [if_neg (Ne.symm hx), if_neg hx, mul_zero]
  rw [Finset.sum_congr rfl h, Finset.sum_ite_eq']
  simp

theorem coeff_tdR (a e : ℚ) (i j : ℕ) :
    coeff i (coeff j (tdR (lin a e))) = if i ≤ j then bernoulli j / (j.factorial : ℚ) * ((j.choose i : ℚ) * e ^ i * a ^ (j - i)) else 0 := by
  unfold tdR
  rw [coeff_mk, coeff_C_mul, coeff_lin_pow]
  split <;> simp

variable {bern : List ℚ} {k : ℕ}

/-- The table of Bernoulli numbers is right up to index `k`. -/
def BernOk (bern : List ℚ) (k : ℕ) : Prop := ∀ j ≤ k, bern.getD j 0 = bernoulli j

theorem todd_mem (bern : List ℚ) (a : ℤ) (c m : ℕ) (f : ℤ) (am : ℚ) : ∀ r ∈ todd bern a c m f am, r.e = 0 := by
  induction c generalizing m f am with
  | zero => simp [todd]
  | succ c ih =>
    intro r hr
    rw [todd, List.mem_cons] at hr
    rcases hr with rfl | hr
    · rfl
    · exact ih _ _ _ r hr

theorem coeff_todd (bern : List ℚ) (a : ℤ) (t : ℤ) (i j c : ℕ) : ∀ m : ℕ,
    coeff i (coeff j (ser (todd bern a c m (m.factorial : ℤ) ((a : ℚ) ^ m)) t)) =
      if i = 0 ∧ m ≤ j ∧ j < m + c then (a : ℚ) ^ j / (j.factorial : ℚ) * bern.getD j 0 else 0 := by
  induction c with
  | zero => intro m; rw [todd, ser_nil, if_neg (by omega)]; simp
  | succ c ih =>
    intro m
    have hf : ((m.factorial : ℤ) * ((m : ℤ) + 1)) = ((m + 1).factorial : ℤ) := by rw [Nat.factorial_succ]; push_cast; ring
    rw [todd, ser_cons, map_add, map_add, hf, ← pow_succ, ih, coeff_term]
    by_cases hj : m = j
    · subst hj
      rw [if_neg (show ¬ (i = 0 ∧ m + 1 ≤ m ∧ m < m + 1 + c) by omega), add_zero]
      by_cases hi : i = 0
      · subst hi; simp
      · rw [if_neg (by simp; omega), if_neg (by omega)]
    · rw [if_neg (by simp [hj]), zero_add]
      by_cases h : i = 0 ∧ m + 1 ≤ j ∧ j < m + 1 + c
      · rw [if_pos h, if_pos (by omega)]
      · rw [if_neg h, if_neg (by omega)]

theorem todd_agree (hb : BernOk bern k) (a : ℤ) (P : ℕ) (t : ℤ) : Agree P k (ser (todd bern a (k + 1) 0 1 1) t) (tdR (lin a 0)) := by
  intro j hj i hi
  have h := coeff_todd bern a t i j (k + 1) 0
  simp only [Nat.factorial_zero, Nat.cast_one, pow_zero] at h
  rw [h, coeff_tdR, hb j hj]
  by_cases hi0 : i = 0
  · subst hi0
    rw [if_pos (by omega), if_pos (Nat.zero_le _)]
    simp
    ring
  · rw [if_neg (by omega)]
    simp [zero_pow hi0]

theorem coeff_todd2 (bern : List ℚ) (P : ℕ) (a e : ℤ) (t : ℤ) (i j c : ℕ) (hi : i ≤ P) : ∀ m : ℕ,
    coeff i (coeff j (ser (todd2 bern P a e c m (m.factorial : ℤ)) t)) =
      if i ≤ j ∧ m ≤ j ∧ j < m + c then bern.getD j 0 / (j.factorial : ℚ) * ((j.choose i : ℚ) * (e : ℚ) ^ i * (a : ℚ) ^ (j - i)) else 0 := by
  induction c with
  | zero => intro m; rw [todd2, ser_nil, if_neg (by omega)]; simp
  | succ c ih =>
    intro m
    have hf : ((m.factorial : ℤ) * ((m : ℤ) + 1)) = ((m + 1).factorial : ℤ) := by rw [Nat.factorial_succ]; push_cast; ring
    rw [todd2, ser_append, map_add, map_add, hf, ih]
    have hl : ∀ l : List ℕ, l.Nodup → (∀ u ∈ l, u ≤ m) → coeff i (coeff j (ser (l.map fun u =>
        (⟨u, m, fun _ => 1 / ((m.factorial : ℤ) : ℚ) * bern.getD m 0 * ((Latte.Knapsack.binomial 2 m u).getD 0 : ℤ) * ((e ^ u * a ^ (m - u) : ℤ) : ℚ)⟩ : Term)) t)) =
        if i ∈ l ∧ m = j then bern.getD j 0 / (j.factorial : ℚ) * ((j.choose i : ℚ) * (e : ℚ) ^ i * (a : ℚ) ^ (j - i)) else 0 := by
      intro l
      induction l with
      | nil => intro _ _; simp [ser_nil]
      | cons u l ihl =>
        intro hn hle
        rw [List.map_cons, ser_cons, map_add, map_add, ihl (List.nodup_cons.1 hn).2 fun v hv => hle v (List.mem_cons_of_mem _ hv), coeff_term]
        have hnot := (List.nodup_cons.1 hn).1
        by_cases hu : u = i
        · subst hu
          by_cases hj : m = j
          · subst hj
            rw [if_pos ⟨rfl, rfl⟩, if_neg (fun h => hnot h.1), if_pos ⟨List.mem_cons_self, rfl⟩, add_zero,
              Latte.Knapsack.c31_binomial_exact m u (hle u List.mem_cons_self) 1]
            push_cast
            simp only [Option.getD_some, Int.cast_natCast]
            ring
          · rw [if_neg (fun h => hj h.2), if_neg (fun h => hj h.2), if_neg (fun h => hj h.2), add_zero]
        · rw [if_neg (fun h => hu h.1), zero_add]
          simp [Ne.symm hu]
    rw [hl _ List.nodup_range (fun u hu => by have := List.mem_range.1 hu; omega)]
    simp only [List.mem_range]
    by_cases hj : m = j
    · subst hj
      rw [if_neg (show ¬ (i ≤ m ∧ m + 1 ≤ m ∧ m < m + 1 + c) by omega), add_zero]
      by_cases him : i ≤ m
      · rw [if_pos ⟨by omega, rfl⟩, if_pos (by omega)]
      · rw [if_neg (by omega), if_neg (by omega)]
    · rw [if_neg (by omega), zero_add]
      by_cases h : i ≤ j ∧ m + 1 ≤ j ∧ j < m + 1 + c
      · rw [if_pos h, if_pos (by omega)]
      · rw [if_neg h, if_neg (by omega)]

theorem todd2_agree (hb : BernOk bern k) (P : ℕ) (a e : ℤ) (t : ℤ) : Agree P k (ser (todd2 bern P a e (k + 1) 0 1) t) (tdR (lin a e)) := by
  intro j hj i hi
  have h := coeff_todd2 bern P a e t i j (k + 1) hi 0
  simp only [Nat.factorial_zero, Nat.cast_one] at h
  rw [h, coeff_tdR, hb j hj]
  by_cases hij : i ≤ j
  · rw [if_pos (by omega), if_pos hij]
  · rw [if_neg (by omega), if_neg hij]

end Verif.TopK
