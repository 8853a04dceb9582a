import Verif.TopK.Agree

/-!
# The three expansions of `findResidue`
-/

namespace Verif.TopK

open PowerSeries

variable {bern : List ℚ} {k : ℕ}

theorem agree_zero_e (a b : GMS) (ha : ∀ r ∈ a, r.e = 0) (hb : ∀ r ∈ b, r.e = 0) (P : ℕ) (t : ℤ) :
    Agree P k (ser (mul a b 0 0 0 k) t) (ser a t * ser b t) := by
  intro j hj i hi
  rw [coeff_mul_window]
  by_cases h0 : i = 0
  · rw [if_pos (by omega)]
  · rw [if_neg (by omega), ← ser_mulAll, coeff_ser, List.filter_eq_nil_iff.2]
    · rfl
    · intro r hr h1
      simp only [decide_eq_true_eq] at h1
      obtain ⟨s, hs, hr⟩ := List.mem_flatMap.1 hr
      obtain ⟨u, hu, rfl⟩ := List.mem_map.1 hr
      have := ha s hs
      have := hb u hu
      simp only at h1
      omega

theorem ser_const (c : ℚ) (t : ℤ) : ser (const c) t = C (C c) := by
  unfold const
  rw [ser_cons, ser_nil]
  simp

theorem nonperiodic_fold (hb : BernOk bern k) (P : ℕ) (t : ℤ) (l : List ℤ) : ∀ g : GMS, (∀ r ∈ g, r.e = 0) →
    (∀ r ∈ l.foldl (fun g a => mul g (todd bern a (k + 1) 0 1 1) 0 0 0 k) g, r.e = 0) ∧
    Agree P k (ser (l.foldl (fun g a => mul g (todd bern a (k + 1) 0 1 1) 0 0 0 k) g) t) (ser g t * (l.map fun a : ℤ => tdR (lin a 0)).prod) := by
  induction l with
  | nil =>
    intro g hg
    refine ⟨hg, ?_⟩
    simpa using Agree.refl P k _
  | cons a l ih =>
    intro g hg
    have h0 : ∀ r ∈ mul g (todd bern a (k + 1) 0 1 1) 0 0 0 k, r.e = 0 := fun r hr => by have := (mem_mul hr).2.1; omega
    obtain ⟨h1, h2⟩ := ih _ h0
    refine ⟨h1, ?_⟩
    rw [List.foldl_cons, List.map_cons, List.prod_cons, ← mul_assoc]
    refine h2.trans (Agree.mul ?_ (Agree.refl _ _ _))
    exact (agree_zero_e _ _ hg (todd_mem _ _ _ _ _ _) P t).trans (Agree.mul (Agree.refl _ _ _) (todd_agree hb a P t))

theorem nonperiodic_agree (hb : BernOk bern k) (P : ℕ) (t : ℤ) (l : List ℤ) :
    Agree P k (ser (expandNonperiodicPart bern k l) t) ((l.map fun a : ℤ => tdR (lin a 0)).prod) := by
  have := (nonperiodic_fold hb P t l (const 1) (by simp [const])).2
  rw [ser_const, map_one, map_one, one_mul] at this
  exact this

theorem periodic_fold (hb : BernOk bern k) (P : ℕ) (t : ℤ) (l : List (ℤ × ℤ)) : ∀ g : GMS,
    Agree P k (ser (l.foldl (fun g ae => mul g (todd2 bern P ae.1 ae.2 (k + 1) 0 1) 0 P 0 k) g) t)
      (ser g t * (l.map fun ae : ℤ × ℤ => tdR (lin ae.1 ae.2)).prod) := by
  induction l with
  | nil =>
    intro g
    simpa using Agree.refl P k _
  | cons a l ih =>
    intro g
    rw [List.foldl_cons, List.map_cons, List.prod_cons, ← mul_assoc]
    refine (ih _).trans (Agree.mul ?_ (Agree.refl _ _ _))
    exact (mul_agree _ _ _ _ _).trans (Agree.mul (Agree.refl _ _ _) (todd2_agree hb P a.1 a.2 t))

theorem coeff_invR (a e : ℚ) (ha : a ≠ 0) (i : ℕ) : coeff i (invR a e) = (-1) ^ i * e ^ i * a ^ (-1 - (i : ℤ)) := by
  unfold invR
  rw [if_neg ha]
  have h : (mk fun i : ℕ => (-1) ^ i * e ^ i * a ^ (-1 - (i : ℤ)) : Reps) = (lin a e)⁻¹ := by
    rw [PowerSeries.eq_inv_iff_mul_eq_one (by rw [constantCoeff_lin]; exact ha)]
    unfold lin
    ext n
    rw [mul_add, map_add, ← mul_assoc]
    cases n with
    | zero =>
      rw [coeff_mul_C, coeff_mk, coeff_zero_mul_X]
      simp [ha]
    | succ n =>
      rw [coeff_mul_C, coeff_mk, coeff_succ_mul_X, coeff_mul_C, coeff_mk, coeff_one, if_neg (Nat.succ_ne_zero n)]
      have e1 : a ^ (-1 - (n : ℤ)) = a ^ (-1 - ((n + 1 : ℕ) : ℤ)) * a := by
        rw [← zpow_add_one₀ ha]
        congr 1
        push_cast
        ring
      rw [e1]
      ring
  rw [← h, coeff_mk]

theorem geomInv_agree (P : ℕ) (a e : ℤ) (ha : a ≠ 0) (t : ℤ) : Agree P k (ser (geomInv P a e) t) (C (invR a e)) := by
  intro j hj i hi
  have haq : (a : ℚ) ≠ 0 := by exact_mod_cast ha
  have hl : ∀ l : List ℕ, l.Nodup → coeff i (coeff j (ser (l.map fun u =>
      (⟨u, 0, fun _ => (if u % 2 = 0 then 1 else -1) * ((e ^ u : ℤ) : ℚ) * (a : ℚ) ^ (-1 - (u : ℤ))⟩ : Term)) t)) =
      if i ∈ l ∧ 0 = j then (-1) ^ i * (e : ℚ) ^ i * (a : ℚ) ^ (-1 - (i : ℤ)) else 0 := by
    intro l
    induction l with
    | nil => intro _; simp [ser_nil]
    | cons u l ihl =>
      intro hn
      rw [List.map_cons, ser_cons, map_add, map_add, ihl (List.nodup_cons.1 hn).2, coeff_term]
      have hnot := (List.nodup_cons.1 hn).1
      by_cases hu : u = i
      · subst hu
        by_cases hj : 0 = j
        · subst hj
          rw [if_pos ⟨rfl, rfl⟩, if_neg (show ¬ (u ∈ l ∧ 0 = 0) from fun h => hnot h.1), if_pos (show u ∈ u :: l ∧ 0 = 0 from ⟨List.mem_cons_self, rfl⟩), add_zero]
          have : (if u % 2 = 0 then (1 : ℚ) else -1) = (-1) ^ u := by
            rcases Nat.even_or_odd u with h | h
            · rw [if_pos (Nat.even_iff.1 h), h.neg_one_pow]
            · rw [if_neg (by rw [Nat.odd_iff.1 h]; decide), h.neg_one_pow]
          rw [this]
          push_cast
          ring
        · rw [if_neg (fun h => hj h.2), if_neg (fun h => hj h.2), if_neg (fun h => hj h.2), add_zero]
      · rw [if_neg (fun h => hu h.1), zero_add]
        simp [Ne.symm hu]
  unfold geomInv
  rw [hl _ List.nodup_range]
  simp only [List.mem_range]
  by_cases hj : j = 0
  · subst hj
    rw [if_pos ⟨by omega, rfl⟩, coeff_zero_C, coeff_invR _ _ haq]
  · rw [if_neg (fun h => hj h.2.symm), coeff_C, if_neg hj, map_zero]

theorem scale_fold (P : ℕ) (t : ℤ) (l : List (ℤ × ℤ)) (hl : ∀ p ∈ l, ¬ (p.1 = 0 ∧ p.2 = 0)) : ∀ s : ℤ × GMS, s.1 ≠ 0 →
    (l.foldl (scaleStep k P) s).1 ≠ 0 ∧
    Agree P k (C (C (1 / ((l.foldl (scaleStep k P) s).1 : ℚ))) * ser (l.foldl (scaleStep k P) s).2 t)
      (C (C (1 / (s.1 : ℚ))) * ser s.2 t * (l.map fun ae : ℤ × ℤ => (C (invR ae.1 ae.2) : Reps⟦X⟧)).prod) := by
  induction l with
  | nil =>
    intro s hs
    refine ⟨hs, ?_⟩
    simpa using Agree.refl P k _
  | cons p l ih =>
    intro s hs
    have hp := hl p List.mem_cons_self
    have key : (scaleStep k P s p).1 ≠ 0 ∧ Agree P k (C (C (1 / ((scaleStep k P s p).1 : ℚ))) * ser (scaleStep k P s p).2 t)
        (C (C (1 / (s.1 : ℚ))) * ser s.2 t * C (invR p.1 p.2)) := by
      unfold scaleStep
      split
      · rename_i h0
        have h2 : p.2 ≠ 0 := fun h => hp ⟨h0, h⟩
        refine ⟨mul_ne_zero hs h2, ?_⟩
        have e : (C (C (1 / ((s.1 * p.2 : ℤ) : ℚ))) : Reps⟦X⟧) = C (C (1 / (s.1 : ℚ))) * C (invR p.1 p.2) := by
          unfold invR
          rw [h0, if_pos (by norm_num), ← map_mul, ← map_mul]
          push_cast
          congr 2
          rw [one_div_mul_one_div]
        rw [e, mul_right_comm]
        exact Agree.refl _ _ _
      · rename_i h0
        have h0q : (p.1 : ℚ) ≠ 0 := by exact_mod_cast h0
        split
        · rename_i h1
          refine ⟨mul_ne_zero hs h0, ?_⟩
          have e : (C (C (1 / ((s.1 * p.1 : ℤ) : ℚ))) : Reps⟦X⟧) = C (C (1 / (s.1 : ℚ))) * C (C (1 / (p.1 : ℚ))) := by
            rw [← map_mul, ← map_mul]
            push_cast
            congr 2
            rw [one_div_mul_one_div]
          rw [e, mul_right_comm]
          refine Agree.mul (Agree.refl _ _ _) ?_
          intro j hj i hi
          rw [coeff_C, coeff_C]
          split
          · rw [coeff_invR _ _ h0q, coeff_C]
            rcases h1 with h1 | h1
            · split
              · rename_i hi0
                simp [hi0]
              · rename_i hi0
                rw [h1]
                simp [zero_pow hi0]
            · have : i = 0 := by omega
              simp [this]
          · rfl
        · refine ⟨hs, ?_⟩
          rw [mul_assoc]
          refine Agree.mul (Agree.refl _ _ _) ?_
          exact (mul_agree _ _ _ _ _).trans (Agree.mul (Agree.refl _ _ _) (geomInv_agree P _ _ h0 t))
    obtain ⟨h1, h2⟩ := ih (fun q hq => hl q (List.mem_cons_of_mem _ hq)) (scaleStep k P s p) key.1
    refine ⟨h1, ?_⟩
    rw [List.foldl_cons, List.map_cons, List.prod_cons, ← mul_assoc]
    exact h2.trans (Agree.mul key.2 (Agree.refl _ _ _))

/-- `expandPeriodicPart`: the series over the bottom coefficient is the product of the `x/(exp(x(a + eε)) - 1)` times `ε` to the number of poles. -/
theorem periodic_agree (hb : BernOk bern k) (P : ℕ) (t : ℤ) (l : List (ℤ × ℤ)) (hl : ∀ p ∈ l, ¬ (p.1 = 0 ∧ p.2 = 0)) :
    (expandPeriodicPart bern k P l).1 ≠ 0 ∧
    Agree P k (C (C (1 / ((expandPeriodicPart bern k P l).1 : ℚ))) * ser (expandPeriodicPart bern k P l).2 t)
      ((l.map fun ae : ℤ × ℤ => (C (invR ae.1 ae.2) : Reps⟦X⟧) * tdR (lin ae.1 ae.2)).prod) := by
  obtain ⟨h1, h2⟩ := scale_fold (k := k) P t l hl
    (1, l.foldl (fun g ae => mul g (todd2 bern P ae.1 ae.2 (k + 1) 0 1) 0 P 0 k) (const 1)) one_ne_zero
  refine ⟨h1, h2.trans ?_⟩
  have h3 := periodic_fold hb P t l (const 1)
  rw [ser_const, map_one, map_one, one_mul] at h3
  simp only [Int.cast_one, div_one, map_one, one_mul]
  rw [List.prod_map_mul, mul_comm (List.map (fun ae : ℤ × ℤ => (C (invR ae.1 ae.2) : Reps⟦X⟧)) l).prod]
  exact Agree.mul h3 (Agree.refl _ _ _)

/-! ## The exponential -/

theorem ioX_inj : Function.Injective ioX := PowerSeries.map_injective io io_inj

theorem exR_add (a b : Reps) : exR (a + b) = exR a * exR b := by
  apply ioX_inj
  rw [map_mul, ioX_exR, ioX_exR, ioX_exR, map_add, ex_add]

theorem coeff_expo (p : PF) (ep : ℕ) (t : ℤ) (i j c : ℕ) : ∀ m : ℕ,
    coeff i (coeff j (ser (expo p ep c m (m.factorial : ℤ)) t)) = if i = ep * j ∧ m ≤ j ∧ j < m + c then p t ^ j / (j.factorial : ℚ) else 0 := by
  induction c with
  | zero => intro m; rw [expo, ser_nil, if_neg (by omega)]; simp
  | succ c ih =>
    intro m
    have hf : ((m.factorial : ℤ) * ((m : ℤ) + 1)) = ((m + 1).factorial : ℤ) := by rw [Nat.factorial_succ]; push_cast; ring
    rw [expo, ser_cons, map_add, map_add, hf, ih, coeff_term]
    by_cases hj : m = j
    · subst hj
      rw [if_neg (show ¬ (i = ep * m ∧ m + 1 ≤ m ∧ m < m + 1 + c) by omega), add_zero]
      by_cases hi : ep * m = i
      · rw [if_pos ⟨hi, rfl⟩, if_pos ⟨hi.symm, le_rfl, by omega⟩]
        simp
      · rw [if_neg (fun h => hi h.1), if_neg (fun h => hi h.1.symm)]
    · rw [if_neg (fun h => hj h.2), zero_add]
      by_cases h : i = ep * j ∧ m + 1 ≤ j ∧ j < m + 1 + c
      · rw [if_pos h, if_pos ⟨h.1, by omega, by omega⟩]
      · rw [if_neg h, if_neg fun h' => h ⟨h'.1, by omega, by omega⟩]

theorem coeff_exR_C (q : ℚ) (i j : ℕ) : coeff i (coeff j (exR (C q))) = if i = 0 then q ^ j / (j.factorial : ℚ) else 0 := by
  unfold exR
  rw [coeff_mk, ← map_pow, ← map_mul, coeff_C]
  split
  · ring
  · rfl

theorem coeff_exR_CX (q : ℚ) (i j : ℕ) : coeff i (coeff j (exR (C q * X))) = if i = j then q ^ j / (j.factorial : ℚ) else 0 := by
  unfold exR
  rw [coeff_mk, mul_pow, ← map_pow, ← mul_assoc, ← map_mul, coeff_C_mul, coeff_X_pow]
  split
  · ring
  · ring

theorem fracSum_eq (l : List (ℤ × ℚ)) (t : ℤ) : fracSum l t = (l.map fun cf => (cf.1 : ℚ) * Int.fract (cf.2 * (t : ℚ))).sum := by
  have h : ∀ (l : List (ℤ × ℚ)) (p : PF), l.foldl (fun (p : PF) (cf : ℤ × ℚ) =>
      if cf.2 = 0 then p else if cf.1 ≠ 0 then fun t => p t + Int.fract (cf.2 * (t : ℚ)) * cf.1 else p) p t =
      p t + (l.map fun cf => (cf.1 : ℚ) * Int.fract (cf.2 * (t : ℚ))).sum := by
    intro l
    induction l with
    | nil => simp
    | cons c l ih =>
      intro p
      rw [List.foldl_cons, ih, List.map_cons, List.sum_cons, ← add_assoc]
      congr 1
      split
      · rename_i h; simp [h]
      · split
        · ring
        · rename_i h
          push Not at h
          simp [h]
  unfold fracSum
  rw [h, zero_add]

theorem exponential_agree (P : ℕ) (t : ℤ) (l : List (ℤ × ℤ × ℚ)) :
    Agree P k (ser (expandExponentialPart k P l) t)
      (exR (C (fracSum (l.map fun r => (r.1, r.2.2)) t) + C (fracSum (l.map fun r => (r.2.1, r.2.2)) t) * X)) := by
  rw [exR_add]
  set pa := fracSum (l.map fun r => (r.1, r.2.2)) with hpa
  set pe := fracSum (l.map fun r => (r.2.1, r.2.2)) with hpe
  have h1 : Agree P k (ser (expo pa 0 (k + 1) 0 1) t) (exR (C (pa t))) := by
    intro j hj i hi
    have h := coeff_expo pa 0 t i j (k + 1) 0
    simp only [Nat.factorial_zero, Nat.cast_one] at h
    rw [h, coeff_exR_C]
    by_cases hi : i = 0
    · rw [if_pos (by omega), if_pos hi]
    · rw [if_neg (by omega), if_neg hi]
  unfold expandExponentialPart
  simp only [← hpa, ← hpe]
  split
  · rename_i h0
    have h2 : Agree P k 1 (exR (C (pe t) * X)) := by
      intro j hj i hi
      rw [coeff_exR_CX, coeff_one]
      rcases h0 with h0 | h0
      · have : i = 0 := by omega
        subst this
        by_cases hj0 : j = 0
        · subst hj0; simp
        · simp [hj0, Ne.symm hj0]
      · have : j = 0 := by omega
        subst this
        simp [coeff_one]
    have := h1.mul h2
    rwa [mul_one] at this
  · refine (mul_agree _ _ _ _ _).trans (h1.mul ?_)
    intro j hj i hi
    have h := coeff_expo pe 1 t i j (min k P + 1) 0
    simp only [Nat.factorial_zero, Nat.cast_one] at h
    rw [h, coeff_exR_CX]
    by_cases hij : i = j
    · rw [if_pos (by omega), if_pos hij]
    · rw [if_neg (by omega), if_neg hij]

end Verif.TopK
