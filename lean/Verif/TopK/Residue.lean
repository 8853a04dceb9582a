import Verif.TopK.Expand
import Verif.TopK.Cones
import Verif.TopK.Basis
import Verif.TopK.Link

/-!
# The series computed for one `f`
-/

namespace Verif.TopK

open PowerSeries
open Verif.Barvinok (Mat Vec Ntl Cone lineFn)
open Verif.Barvinok.Spec

variable {m : ℕ}

/-- Series in `x` alone. -/
noncomputable def em : ℚ⟦X⟧ →+* Reps⟦X⟧ := PowerSeries.map (C : ℚ →+* Reps)

theorem coeff_em (S : ℚ⟦X⟧) (i j : ℕ) : coeff i (coeff j (em S)) = if i = 0 then coeff j S else 0 := by
  unfold em
  rw [coeff_map, coeff_C]

theorem em_td (a : ℚ) : em (td a) = tdR (lin a 0) := by
  ext j i
  rw [coeff_em, coeff_tdR, coeff_td]
  by_cases hi : i = 0
  · subst hi
    rw [if_pos rfl, if_pos (Nat.zero_le _)]
    simp
    ring
  · rw [if_neg hi]
    simp [zero_pow hi]

theorem em_pole (a : ℚ) : em (pole 1 a) = -(C (C (1 / a)) * tdR (lin a 0)) := by
  have h : pole 1 a = -(C (1 / a) * td a) := by
    unfold pole
    rw [if_pos rfl]
  rw [h, map_neg, map_mul, em_td]
  congr 2
  simp [em]

theorem coeff_mul_em (R : Reps⟦X⟧) (D : ℚ⟦X⟧) (i j : ℕ) :
    coeff i (coeff j (R * em D)) = ∑ p ∈ Finset.HasAntidiagonal.antidiagonal j, coeff i (coeff p.1 R) * coeff p.2 D := by
  rw [coeff_mul, map_sum]
  refine Finset.sum_congr rfl fun p _ => ?_
  have : coeff p.2 (em D) = C (coeff p.2 D) := by simp [em]
  rw [this, coeff_mul_C]

/-- The product of the non-periodic factors, as computed and as series. -/
theorem bottomProd_eq (l : List ℤ) : bottomProd l = l.prod := by
  unfold bottomProd
  rw [List.prod_eq_foldl]

theorem em_poles (l : List ℤ) :
    em ((l.map fun a : ℤ => pole 1 (a : ℚ)).prod) =
      C (C ((-1) ^ l.length / (bottomProd l : ℚ))) * (l.map fun a : ℤ => tdR (lin a 0)).prod := by
  rw [bottomProd_eq]
  induction l with
  | nil => simp
  | cons a l ih =>
    rw [List.map_cons, List.prod_cons, map_mul, ih, em_pole]
    simp only [List.map_cons, List.prod_cons, List.length_cons]
    have e : (C (C ((-1) ^ (l.length + 1) / ((a * l.prod : ℤ) : ℚ))) : Reps⟦X⟧) = -(C (C (1 / (a : ℚ))) * C (C ((-1) ^ l.length / (l.prod : ℚ)))) := by
      rw [← map_mul, ← map_mul, ← map_neg, ← map_neg]
      congr 2
      rw [pow_succ, Int.cast_mul, div_mul_div_comm, one_mul, mul_neg_one, neg_div]
    rw [e]
    ring

theorem poleR_prod (l : List (ℤ × ℤ)) :
    (l.map fun p : ℤ × ℤ => poleR p.1 p.2).prod =
      C (C ((-1) ^ l.length)) * (l.map fun ae : ℤ × ℤ => (C (invR ae.1 ae.2) : Reps⟦X⟧) * tdR (lin ae.1 ae.2)).prod := by
  induction l with
  | nil => simp
  | cons p l ih =>
    rw [List.map_cons, List.prod_cons, ih]
    simp only [List.map_cons, List.prod_cons, List.length_cons, pow_succ, map_mul, map_neg, map_one, poleR]
    ring

/-- The coefficients of `B⁻¹ s` in the rays, before integral ones are set to 0. -/
def rawFraction (B : Mat (m + 1)) (s : Fin (m + 1) → ℤ) (G : Mat (m + 1)) (i : Fin (m + 1)) : ℚ :=
  (((G.transpose.adjugate.mulVec (B.adjugate.mulVec s)) i : ℤ) : ℚ) / ((B.det * G.transpose.det : ℤ) : ℚ)

theorem fract_fractions (B : Mat (m + 1)) (s : Fin (m + 1) → ℤ) (G : Mat (m + 1)) (i : Fin (m + 1)) (t : ℤ) :
    Int.fract (fractions B s G i * (t : ℚ)) = Int.fract ((t : ℚ) * rawFraction B s G i) := by
  unfold fractions
  simp only
  change Int.fract ((if (rawFraction B s G i).den = 1 then 0 else rawFraction B s G i) * (t : ℚ)) = _
  split
  · rename_i h
    have h1 : ((rawFraction B s G i).num : ℚ) = rawFraction B s G i := Rat.coe_int_num_of_den_eq_one h
    rw [← h1, zero_mul, Int.fract_zero, ← Int.cast_mul, Int.fract_intCast]
  · rw [mul_comm]

theorem rawFraction_spec (B : Mat (m + 1)) (hB : B.det ≠ 0) (s : Fin (m + 1) → ℤ) (G : Mat (m + 1)) (hG : G.det ≠ 0) (k : Fin (m + 1)) :
    ∑ i, rawFraction B s G i * (((B.mulVec (G i)) k : ℤ) : ℚ) = s k := by
  have hd : ((B.det * G.transpose.det : ℤ) : ℚ) ≠ 0 := by
    rw [Matrix.det_transpose]
    exact_mod_cast mul_ne_zero hB hG
  set v := G.transpose.adjugate.mulVec (B.adjugate.mulVec s) with hv
  have h1 : ∑ i, v i * B.mulVec (G i) k = B.det * G.transpose.det * s k := by
    have e1 : G.transpose.mulVec v = G.transpose.det • B.adjugate.mulVec s := by
      rw [hv, Matrix.mulVec_mulVec, Matrix.mul_adjugate, Matrix.smul_mulVec, Matrix.one_mulVec]
    have e2 : B.mulVec (G.transpose.mulVec v) = (B.det * G.transpose.det) • s := by
      rw [e1, Matrix.mulVec_smul, Matrix.mulVec_mulVec, Matrix.mul_adjugate, Matrix.smul_mulVec, Matrix.one_mulVec, smul_smul, mul_comm]
    have e3 := congrFun e2 k
    rw [Pi.smul_apply, smul_eq_mul] at e3
    rw [← e3]
    show ∑ i, v i * ∑ j, B k j * G i j = ∑ j, B k j * ∑ i, G i j * v i
    simp only [Finset.mul_sum]
    rw [Finset.sum_comm]
    exact Finset.sum_congr rfl fun j _ => Finset.sum_congr rfl fun i _ => by ring
  have h2 : ∀ i, rawFraction B s G i * (((B.mulVec (G i)) k : ℤ) : ℚ) = ((v i * B.mulVec (G i) k : ℤ) : ℚ) / ((B.det * G.transpose.det : ℤ) : ℚ) := by
    intro i
    unfold rawFraction
    push_cast
    ring
  rw [Finset.sum_congr rfl fun i _ => h2 i, ← Finset.sum_div, ← Int.cast_sum, h1]
  rw [Int.cast_mul (B.det * G.transpose.det), mul_div_cancel_left₀ _ hd]

/-- The series of one cone in `ε` and `x`, times `ε` to the number of its poles. -/
noncomputable def coneSer (a beta : Fin (m + 1) → ℤ) (B : Mat (m + 1)) (s : Fin (m + 1) → ℤ) (t : ℤ) (G : Mat (m + 1)) : Reps⟦X⟧ :=
  exR (∑ i, C (Int.fract ((t : ℚ) * rawFraction B s G i)) * lin (pair a B (G i)) (pair beta B (G i))) *
    ∏ i, poleR (pair a B (G i)) (pair beta B (G i))

/-- The number of poles of a cone. -/
def poles (a : Fin (m + 1) → ℤ) (B : Mat (m + 1)) (G : Mat (m + 1)) : ℕ := ∑ i, np (pair a B (G i))

theorem countP_zero (l : List (Fin (m + 1))) (A E : Fin (m + 1) → ℤ) :
    ((l.map fun i => (A i, E i)).countP fun p => p.1 = 0) = (l.map fun i => np (A i)).sum := by
  induction l with
  | nil => rfl
  | cons i l ih =>
    rw [List.map_cons, List.countP_cons, ih, List.map_cons, List.sum_cons, add_comm]
    congr 1
    unfold np
    by_cases h : A i = 0 <;> simp [h]

/-- **One cone.** -/
theorem coneTerms_spec {bern : List ℚ} {k : ℕ} (hb : BernOk bern k) (topK : Bool) (len : ℕ) (a : Fin (m + 1) → ℤ) (fDiv : List ℤ) (hfd : ∀ b ∈ fDiv, b ≠ 0)
    (hlen : len = fDiv.length + (m + 1)) (B : Mat (m + 1)) (s beta : Fin (m + 1) → ℤ) (Cn : Cone (m + 1)) (g : GMS)
    (h : coneTerms bern k topK len a fDiv B s beta Cn = some g) :
    (∀ i, ¬ (pair a B (Cn.rays i) = 0 ∧ pair beta B (Cn.rays i) = 0)) ∧
    (∀ r ∈ g, (if topK then 0 else k) ≤ r.x ∧ r.x ≤ k) ∧
    ∀ t, ∀ j ≤ k, (if topK then 0 else k) ≤ j → xcoef g t j = (Cn.coefficient : ℚ) *
      coeff (poles a B Cn.rays) (coeff j (coneSer a beta B s t Cn.rays * em ((fDiv.map fun b : ℤ => pole 1 (b : ℚ)).prod))) := by
  unfold coneTerms at h
  simp only at h
  split at h
  · cases h
  rename_i hany
  set ae := (List.finRange (m + 1)).map fun i => (pair a B (Cn.rays i), pair beta B (Cn.rays i)) with hae
  have hne : ∀ p ∈ ae, ¬ (p.1 = 0 ∧ p.2 = 0) := by
    intro p hp h0
    exact hany (List.any_eq_true.2 ⟨p, hp, by simpa using h0⟩)
  have hP : ae.countP (fun p => p.1 = 0) = poles a B Cn.rays := by
    rw [hae, countP_zero]
    unfold poles
    rw [Fin.sum_univ_def]
  rw [hP] at h
  set P := poles a B Cn.rays with hPdef
  have hg := Option.some.inj h
  refine ⟨fun i => hne _ (List.mem_map.2 ⟨i, List.mem_finRange i, rfl⟩), fun r hr => ?_, fun t j hj hj0 => ?_⟩
  · rw [← hg] at hr
    exact (mem_mul hr).2.2
  · have he : ∀ r ∈ g, r.e = P := fun r hr => by
      rw [← hg] at hr
      have := mem_mul hr
      omega
    rw [xcoef_eq g t P j he, ← hg, coeff_mul_window, if_pos ⟨le_rfl, le_rfl, hj0, hj⟩, ser_const, coeff_mul_C, coeff_mul_C]
    obtain ⟨hb0, hper⟩ := periodic_agree hb P t ae hne
    set per := expandPeriodicPart bern k P ae with hperdef
    have hnon := nonperiodic_agree hb P t fDiv
    have hexp := exponential_agree (k := k) P t ((List.finRange (m + 1)).map fun i => (pair a B (Cn.rays i), pair beta B (Cn.rays i), fractions B s Cn.rays i))
    -- the exponent
    have hpa : (C (fracSum (((List.finRange (m + 1)).map fun i => (pair a B (Cn.rays i), pair beta B (Cn.rays i), fractions B s Cn.rays i)).map
          fun r => (r.1, r.2.2)) t) +
        C (fracSum (((List.finRange (m + 1)).map fun i => (pair a B (Cn.rays i), pair beta B (Cn.rays i), fractions B s Cn.rays i)).map
          fun r => (r.2.1, r.2.2)) t) * X : Reps) =
        ∑ i, C (Int.fract ((t : ℚ) * rawFraction B s Cn.rays i)) * lin (pair a B (Cn.rays i)) (pair beta B (Cn.rays i)) := by
      rw [fracSum_eq, fracSum_eq, List.map_map, List.map_map, List.map_map, List.map_map]
      have e1 : ∀ w : Fin (m + 1) → ℚ, ((List.finRange (m + 1)).map w).sum = ∑ i, w i := fun w => (Fin.sum_univ_def w).symm
      rw [e1, e1]
      simp only [Function.comp, fract_fractions]
      rw [map_sum, map_sum, Finset.sum_mul, ← Finset.sum_add_distrib]
      refine Finset.sum_congr rfl fun i _ => ?_
      unfold lin
      simp only [map_mul]
      ring
    rw [hpa] at hexp
    have hprod : ∏ i, poleR (pair a B (Cn.rays i)) (pair beta B (Cn.rays i)) = (ae.map fun p : ℤ × ℤ => poleR p.1 p.2).prod := by
      rw [hae, List.map_map, Fin.prod_univ_def]
      rfl
    have haelen : ae.length = m + 1 := by rw [hae]; simp
    -- all together
    have hall := ((mul_agree (mul per.2 (expandNonperiodicPart bern k fDiv) 0 P 0 k) (expandExponentialPart k P
      ((List.finRange (m + 1)).map fun i => (pair a B (Cn.rays i), pair beta B (Cn.rays i), fractions B s Cn.rays i))) P k t).trans
      (Agree.mul ((mul_agree per.2 (expandNonperiodicPart bern k fDiv) P k t).trans (Agree.mul (Agree.refl _ _ _) hnon)) hexp))
    have hall2 : Agree P k (C (C (1 / (per.1 : ℚ))) * ser (mul (mul per.2 (expandNonperiodicPart bern k fDiv) 0 P 0 k) (expandExponentialPart k P
      ((List.finRange (m + 1)).map fun i => (pair a B (Cn.rays i), pair beta B (Cn.rays i), fractions B s Cn.rays i))) 0 P 0 k) t)
      ((ae.map fun ae : ℤ × ℤ => (C (invR ae.1 ae.2) : Reps⟦X⟧) * tdR (lin ae.1 ae.2)).prod * (fDiv.map fun a : ℤ => tdR (lin a 0)).prod *
        exR (∑ i, C (Int.fract ((t : ℚ) * rawFraction B s Cn.rays i)) * lin (pair a B (Cn.rays i)) (pair beta B (Cn.rays i)))) := by
      refine (Agree.mul (Agree.refl _ _ _) hall).trans ?_
      rw [← mul_assoc, ← mul_assoc]
      exact Agree.mul (Agree.mul hper (Agree.refl _ _ _)) (Agree.refl _ _ _)
    have hval := hall2 j hj P le_rfl
    rw [coeff_C_mul, coeff_C_mul] at hval
    unfold coneSer
    rw [hprod, poleR_prod, em_poles fDiv, haelen]
    have hfin : exR (∑ i, C (Int.fract ((t : ℚ) * rawFraction B s Cn.rays i)) * lin (pair a B (Cn.rays i)) (pair beta B (Cn.rays i))) *
        (C (C ((-1) ^ (m + 1))) * (ae.map fun ae : ℤ × ℤ => (C (invR ae.1 ae.2) : Reps⟦X⟧) * tdR (lin ae.1 ae.2)).prod) *
        (C (C ((-1) ^ fDiv.length / (bottomProd fDiv : ℚ))) * (fDiv.map fun a : ℤ => tdR (lin a 0)).prod) =
        C (C ((-1) ^ (m + 1) * ((-1) ^ fDiv.length / (bottomProd fDiv : ℚ)))) *
        ((ae.map fun ae : ℤ × ℤ => (C (invR ae.1 ae.2) : Reps⟦X⟧) * tdR (lin ae.1 ae.2)).prod * (fDiv.map fun a : ℤ => tdR (lin a 0)).prod *
        exR (∑ i, C (Int.fract ((t : ℚ) * rawFraction B s Cn.rays i)) * lin (pair a B (Cn.rays i)) (pair beta B (Cn.rays i)))) := by
      rw [map_mul, map_mul]
      ring
    rw [hfin, coeff_C_mul, coeff_C_mul, ← hval]
    have hsign : (if len % 2 = 0 then (1 : ℚ) else -1) = (-1) ^ (m + 1) * (-1) ^ fDiv.length := by
      rw [← pow_add, show m + 1 + fDiv.length = len by omega]
      rcases Nat.even_or_odd len with hh | hh
      · rw [if_pos (Nat.even_iff.1 hh), hh.neg_one_pow]
      · rw [if_neg (by rw [Nat.odd_iff.1 hh]; decide), hh.neg_one_pow]
    rw [hsign]
    have hb0q : (per.1 : ℚ) ≠ 0 := by exact_mod_cast hb0
    have hbp : (bottomProd fDiv : ℚ) ≠ 0 := by
      rw [bottomProd_eq]
      have : fDiv.prod ≠ 0 := fun h0 => hfd 0 (List.prod_eq_zero_iff.1 h0) rfl
      exact_mod_cast this
    push_cast
    field_simp

end Verif.TopK
