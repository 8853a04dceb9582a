import Verif.Series.Gen
import Verif.Series.Build
import Verif.PolySubst.Count

/-!
# Counting the lattice points of every height
-/

namespace Verif.Series

open PowerSeries
open Verif.PolySubst (wz wz_add wz_zero wz_nat psiHom den')
open Verif.ExpSubst (Lat LP act mono emb ip negligible)

variable {m : ℕ}

/-! ### From series in `s` over series in `t` to series in `t` over series in `s` -/

/-- Exchanging the two variables. -/
noncomputable def swap : PowerSeries (PowerSeries ℚ) →+* PowerSeries (PowerSeries ℚ) where
  toFun f := PowerSeries.mk fun n => PowerSeries.mk fun k => coeff n (coeff k f)
  map_one' := by
    ext n k
    rw [coeff_mk, coeff_mk, coeff_one, coeff_one]
    by_cases hn : n = 0 <;> by_cases hk : k = 0 <;> simp [hn, hk, coeff_one]
  map_zero' := by
    ext n k
    rw [coeff_mk, coeff_mk]
    simp
  map_add' f g := by
    ext n k
    simp only [coeff_mk, map_add]
  map_mul' f g := by
    ext n k
    rw [coeff_mk, coeff_mk, coeff_mul, coeff_mul, map_sum, map_sum]
    simp only [coeff_mul, coeff_mk]
    rw [Finset.sum_comm]

theorem coeff_swap (f : PowerSeries (PowerSeries ℚ)) (n k : ℕ) : coeff k (coeff n (swap f)) = coeff n (coeff k f) := by
  show coeff k (coeff n (PowerSeries.mk fun n => PowerSeries.mk fun k => coeff n (coeff k f))) = _
  rw [coeff_mk, coeff_mk]

/-- As a Laurent series in `t`. -/
noncomputable def tau : PowerSeries (PowerSeries ℚ) →+* HahnSeries ℤ (PowerSeries ℚ) := (HahnSeries.ofPowerSeries ℤ (PowerSeries ℚ)).comp swap

theorem coeff_tau (f : PowerSeries (PowerSeries ℚ)) (n k : ℕ) : coeff k ((tau f).coeff (n : ℤ)) = coeff n (coeff k f) := by
  show coeff k ((HahnSeries.ofPowerSeries ℤ (PowerSeries ℚ) (swap f)).coeff (n : ℤ)) = _
  rw [HahnSeries.ofPowerSeries_apply_coeff, coeff_swap]

theorem tau_CX (n : ℕ) : tau (C (X ^ n)) = HahnSeries.single (n : ℤ) 1 := by
  have : swap (C (X ^ n)) = X ^ n := by
    ext j k
    rw [coeff_swap, coeff_C, coeff_X_pow]
    by_cases hk : k = 0
    · rw [if_pos hk, coeff_X_pow]
      by_cases hj : j = n <;> simp [hj, hk]
    · rw [if_neg hk]
      by_cases hj : j = n <;> simp [hj, hk, coeff_one]
  show HahnSeries.ofPowerSeries ℤ (PowerSeries ℚ) (swap _) = _
  rw [this, HahnSeries.ofPowerSeries_X_pow]

theorem tau_X : tau X = HahnSeries.C X := by
  have : swap X = C X := by
    ext j k
    rw [coeff_swap, coeff_C, coeff_X]
    by_cases hk : k = 1 <;> by_cases hj : j = 0 <;> simp [hk, hj, coeff_one, coeff_X]
  show HahnSeries.ofPowerSeries ℤ (PowerSeries ℚ) (swap _) = _
  rw [this, HahnSeries.ofPowerSeries_C]

theorem tau_onePlus (R : ℕ) : tau (toQQ (onePlus ^ R)) = HahnSeries.single 0 (wz (R : ℤ)) := by
  have h1 : toQQ onePlus = 1 + X := by simp [toQQ, onePlus]
  rw [map_pow, map_pow, h1, map_add, map_one, tau_X, wz_nat]
  have : (1 : HahnSeries ℤ (PowerSeries ℚ)) + HahnSeries.C X = HahnSeries.C PolySubst.W := by
    rw [PolySubst.W, map_add, map_one]
  rw [this, ← map_pow]
  rfl

theorem tau_toQQ_CX (n : ℕ) : tau (toQQ (C (X ^ n))) = HahnSeries.single (n : ℤ) 1 := by
  rw [← tau_CX]
  congr 1
  simp [toQQ]

/-! ### One cone -/

/-- `1 - (1+s)^r t^x` as a Laurent series. -/
noncomputable def factor (g : Gen) : HahnSeries ℤ (PowerSeries ℚ) := 1 - HahnSeries.single g.t (wz g.r)

theorem simplifyGen_simple (g : Gen) (h0 : g.rSubT = false) (hg : ¬ (g.r = 0 ∧ g.t = 0)) : (simplifyGen g).1.Simple ∧
    0 ≤ (simplifyGen g).2.2.1 ∧ 0 ≤ (simplifyGen g).2.2.2 ∧ ((simplifyGen g).1.t = 0 ↔ g.t = 0) := by
  unfold simplifyGen
  split_ifs with h1 h2 h3
  · refine ⟨⟨?_, ?_, ?_, ?_⟩, ?_, ?_, ?_⟩ <;> simp only [h0, Bool.false_eq_true, false_imp_iff] <;> omega
  · refine ⟨⟨?_, ?_, ?_, ?_⟩, ?_, ?_, ?_⟩ <;> simp only [true_imp_iff] <;> omega
  · refine ⟨⟨?_, ?_, ?_, ?_⟩, ?_, ?_, ?_⟩ <;> simp only [true_imp_iff] <;> omega
  · refine ⟨⟨?_, ?_, ?_, ?_⟩, ?_, ?_, ?_⟩ <;> simp only [h0, Bool.false_eq_true, false_imp_iff] <;> omega

/-- The simplified generator. -/
theorem simplifyGen_spec (g : Gen) (h0 : g.rSubT = false) :
    factor g * (if (simplifyGen g).2.1 then -1 else 1) * HahnSeries.single (simplifyGen g).2.2.2 (wz (simplifyGen g).2.2.1) =
      tau (toQQ (genSeries (simplifyGen g).1)) := by
  have hw : ∀ e : ℤ, 0 ≤ e → HahnSeries.single 0 (wz e) = tau (toQQ (onePlus ^ e.toNat)) := by
    intro e he
    rw [tau_onePlus, Int.toNat_of_nonneg he]
  have ht : ∀ e : ℤ, 0 ≤ e → HahnSeries.single e 1 = tau (toQQ (C (X ^ e.toNat))) := by
    intro e he
    rw [tau_toQQ_CX, Int.toNat_of_nonneg he]
  have hmul : ∀ (a b c d : ℤ), (HahnSeries.single a (wz b) : HahnSeries ℤ (PowerSeries ℚ)) * HahnSeries.single c (wz d) =
      HahnSeries.single (a + c) (wz (b + d)) := by
    intro a b c d
    rw [HahnSeries.single_mul_single, wz_add]
  have hsplit : ∀ (a b : ℤ), (HahnSeries.single a (wz b) : HahnSeries ℤ (PowerSeries ℚ)) = HahnSeries.single 0 (wz b) * HahnSeries.single a 1 := by
    intro a b
    rw [HahnSeries.single_mul_single, zero_add, mul_one]
  have hone : (HahnSeries.single 0 (wz 0) : HahnSeries ℤ (PowerSeries ℚ)) = 1 := by rw [wz_zero]; rfl
  have hw0 : ∀ a : ℤ, (HahnSeries.single a (wz 0) : HahnSeries ℤ (PowerSeries ℚ)) = HahnSeries.single a 1 := fun a => by rw [wz_zero]
  have e1 : ∀ a b : HahnSeries ℤ (PowerSeries ℚ), (1 - a) * -1 * b = a * b - b := fun a b => by ring
  have e2 : ∀ a b : HahnSeries ℤ (PowerSeries ℚ), (1 - a) * 1 * b = b - a * b := fun a b => by ring
  unfold simplifyGen factor
  by_cases h1 : g.r < 0
  · by_cases h2 : g.t ≤ 0
    · simp only [if_pos h1, if_pos h2, if_true, genSeries, h0, Bool.false_eq_true, if_false, map_sub, map_mul, map_one]
      rw [← hw _ (by omega), ← ht _ (by omega), ← hsplit, e1, hmul]
      simp only [add_neg_cancel, hone]
    · simp only [if_pos h1, if_neg h2, Bool.false_eq_true, if_false, genSeries, if_true, map_sub]
      rw [← hw _ (by omega), ← ht _ (by omega), e2, hmul]
      simp only [add_neg_cancel, add_zero, hw0]
  · by_cases h3 : g.t < 0
    · simp only [if_neg h1, if_pos h3, if_true, genSeries, map_sub]
      rw [← hw _ (by omega), ← ht _ (by omega), e1, hmul, hw0]
      simp only [add_neg_cancel, add_zero]
    · simp only [if_neg h1, if_neg h3, Bool.false_eq_true, if_false, genSeries, h0, map_sub, map_mul, map_one]
      rw [← hw _ (by omega), ← ht _ (by omega), ← hsplit, hone, mul_one, mul_one]

theorem simplify_spec (gs : List Gen) (hs : ∀ g ∈ gs, g.rSubT = false) (hg : ∀ g ∈ gs, ¬ (g.r = 0 ∧ g.t = 0)) (D : ConeData) :
    ∃ (gs' : List Gen) (σ : ℤ) (ρ θ : ℤ), simplify gs D = ⟨D.gens ++ gs', D.sign * σ, D.r + ρ, D.t + θ⟩ ∧ (σ = 1 ∨ σ = -1) ∧ 0 ≤ ρ ∧ 0 ≤ θ ∧
      (∀ g ∈ gs', g.Simple) ∧ gs'.length = gs.length ∧ poleOrder gs' = poleOrder gs ∧
      (gs.map factor).prod * (σ : HahnSeries ℤ (PowerSeries ℚ)) * HahnSeries.single θ (wz ρ) = tau (toQQ (gs'.map genSeries).prod) := by
  induction gs generalizing D with
  | nil =>
    refine ⟨[], 1, 0, 0, by simp [simplify], Or.inl rfl, le_rfl, le_rfl, by simp, rfl, rfl, ?_⟩
    rw [wz_zero]
    simp
  | cons g gs ih =>
    obtain ⟨h1, h2, h3, h4⟩ := simplifyGen_simple g (hs g List.mem_cons_self) (hg g List.mem_cons_self)
    have h5 := simplifyGen_spec g (hs g List.mem_cons_self)
    obtain ⟨gs', σ, ρ, θ, e1, e2, e3, e4, e5, e6, e7, e8⟩ := ih (fun g h => hs g (List.mem_cons_of_mem _ h)) (fun g h => hg g (List.mem_cons_of_mem _ h))
      ⟨D.gens ++ [(simplifyGen g).1], if (simplifyGen g).2.1 then D.sign * -1 else D.sign, D.r + (simplifyGen g).2.2.1, D.t + (simplifyGen g).2.2.2⟩
    refine ⟨(simplifyGen g).1 :: gs', (if (simplifyGen g).2.1 then -1 else 1) * σ, (simplifyGen g).2.2.1 + ρ, (simplifyGen g).2.2.2 + θ, ?_, ?_,
      by omega, by omega, ?_, by simp [e6], ?_, ?_⟩
    · unfold simplify
      dsimp only
      rw [e1]
      simp only [List.append_assoc, List.singleton_append, add_assoc]
      congr 1
      split <;> ring
    · rcases e2 with rfl | rfl <;> split <;> simp
    · intro g' hg'
      rcases List.mem_cons.1 hg' with rfl | hg'
      · exact h1
      · exact e5 g' hg'
    · unfold poleOrder at e7 ⊢
      rw [List.filter_cons, List.filter_cons]
      simp only [h4]
      split <;> simp [e7]
    · rw [List.map_cons, List.prod_cons, List.map_cons, List.prod_cons, map_mul, map_mul, ← h5, ← e8]
      have : (HahnSeries.single ((simplifyGen g).2.2.2 + θ) (wz ((simplifyGen g).2.2.1 + ρ)) : HahnSeries ℤ (PowerSeries ℚ)) =
          HahnSeries.single (simplifyGen g).2.2.2 (wz (simplifyGen g).2.2.1) * HahnSeries.single θ (wz ρ) := by
        rw [HahnSeries.single_mul_single, wz_add]
      rw [this]
      generalize (HahnSeries.single (simplifyGen g).2.2.2 (wz (simplifyGen g).2.2.1) : HahnSeries ℤ (PowerSeries ℚ)) = A
      generalize (HahnSeries.single θ (wz ρ) : HahnSeries ℤ (PowerSeries ℚ)) = B
      push_cast
      split <;> ring

/-- The factors `s` of the poles. -/
theorem gen_red (g : Gen) (hg : g.Simple) : genSeries g = X ^ (if g.t = 0 then 1 else 0) * redSeries g := by
  unfold redSeries
  by_cases ht : g.t = 0
  · have hs : g.rSubT = false := by
      cases h : g.rSubT
      · rfl
      · exact absurd ht (hg.sub h)
    rw [if_pos ht, if_neg (by simpa using ht), pow_one]
    ext1 k
    cases k with
    | zero =>
      rw [coeff_zero_X_mul, genSeries, hs, ht]
      have h0 : constantCoeff (R := PowerSeries ℤ) onePlus = 1 := by simp [onePlus]
      simp [h0]
    | succ k => rw [coeff_succ_X_mul, coeff_mk]
  · rw [if_neg ht, if_pos ht, pow_zero, one_mul]

theorem gens_red (gs : List Gen) (hgs : ∀ g ∈ gs, g.Simple) : (gs.map genSeries).prod = X ^ poleOrder gs * (gs.map redSeries).prod := by
  induction gs with
  | nil => simp [poleOrder]
  | cons g gs ih =>
    rw [List.map_cons, List.prod_cons, List.map_cons, List.prod_cons, ih fun g h => hgs g (List.mem_cons_of_mem _ h), gen_red g (hgs g List.mem_cons_self)]
    unfold poleOrder
    rw [List.filter_cons]
    by_cases ht : g.t = 0
    · simp only [ht, if_true, decide_true, List.length_cons]
      ring
    · simp only [ht, if_false, decide_false, Bool.false_eq_true]
      ring

/-- The quotient whose coefficient is computed. -/
theorem exists_quotient (gs : List Gen) (hgs : ∀ g ∈ gs, g.Simple) (num : PowerSeries (PowerSeries ℤ)) :
    ∃ q, toQQ (gs.map redSeries).prod * q = toQQ num := by
  have hu : IsUnit (toQQ (gs.map redSeries).prod) := by
    rw [PowerSeries.isUnit_iff_constantCoeff, PowerSeries.isUnit_iff_constantCoeff, isUnit_iff_ne_zero]
    have := constantCoeff_reds gs hgs
    rw [← coeff_zero_eq_constantCoeff_apply, ← coeff_zero_eq_constantCoeff_apply, coeff_toQQ, coeff_toQ, coeff_zero_eq_constantCoeff_apply]
    exact_mod_cast this
  obtain ⟨u, hu⟩ := hu
  refine ⟨(↑u⁻¹ : PowerSeries (PowerSeries ℚ)) * toQQ num, ?_⟩
  rw [← hu, ← mul_assoc, Units.mul_inv, one_mul]

/-- The generators of a cone. -/
def coneGens (generic : Barvinok.Vec (m + 1)) (C : Barvinok.Cone (m + 1)) : List Gen := List.ofFn fun i => readGen generic (C.rays i)

/-- **One cone.** The coefficients of the quotient are added, each multiplied by `T` and rounded. -/
theorem residueFunctionSingle_spec (junk : ℕ → Ref) (T : ℤ) (degree : ℕ) (hdeg : 1 ≤ degree) (generic : Barvinok.Vec (m + 1)) (C : Barvinok.Cone (m + 1))
    (hv : C.vertex = 0) (hdet : |C.determinant| = 1) (hc : C.coefficient = 1 ∨ C.coefficient = -1)
    (hgen : ∀ g ∈ coneGens generic C, ¬ (g.r = 0 ∧ g.t = 0)) (acc : PolySubst.Arr) (p : Pool) (hw : p.width = m + 3) (hpd : p.degree = degree)
    (hP : p.usedP = 0) :
    ∃ (q : PowerSeries (PowerSeries ℚ)) (σ : ℤ) (p' : Pool), (σ = 1 ∨ σ = -1) ∧ p'.width = m + 3 ∧ p'.degree = degree ∧ p'.usedP = 0 ∧
      residueFunctionSingle junk T degree generic C acc p = .ok (fun k => if k ≤ degree then
        acc k + σ * ⌊(T : ℚ) * coeff k (coeff (poleOrder (coneGens generic C)) q)⌋ else acc k, p') ∧
      ((coneGens generic C).map factor).prod * ((σ : HahnSeries ℤ (PowerSeries ℚ)) * tau q) =
        (C.coefficient : HahnSeries ℤ (PowerSeries ℚ)) * (HahnSeries.C X) ^ poleOrder (coneGens generic C) := by
  have hexp : expansionDegree degree = degree := by unfold expansionDegree; split <;> omega
  obtain ⟨gs', σ, ρ, θ, e1, e2, e3, e4, e5, e6, e7, e8⟩ := simplify_spec (coneGens generic C) (by
    intro g hg
    obtain ⟨i, rfl⟩ := List.mem_ofFn.1 hg
    rfl) hgen ⟨[], C.coefficient, 0, 0⟩
  simp only [List.nil_append, zero_add] at e1
  obtain ⟨q, hq⟩ := exists_quotient gs' e5 (numSeries ⟨gs', C.coefficient * σ, ρ, θ⟩)
  have hlen : (coneGens generic C).length = m + 1 := by simp [coneGens]
  have hord : poleOrder (coneGens generic C) ≤ m + 1 := by
    rw [← hlen]; exact List.length_filter_le _ _
  have hne : gs' ≠ [] := by
    intro h
    rw [h, hlen] at e6
    cases e6
  have hcache : CacheOk degree T p := by
    intro i hi
    omega
  obtain ⟨c, p1, h1, h2, h3⟩ := coneExpression_spec degree T junk (poleOrder (coneGens generic C)) ⟨gs', C.coefficient * σ, ρ, θ⟩ e3 e4 e5 hne p (by omega)
    (by omega) (by omega) q hq
  obtain ⟨r, p2, h4, h5, h6⟩ := taylor_spec (by rw [h2.degree, hpd]) h3 (p1.usedP + 1) (by have := rank_of_below h3.used; omega) p1
    ⟨.refl _, h2.cache hcache⟩
  have hsign : C.coefficient * σ = 1 ∨ C.coefficient * σ = -1 := by
    rcases hc with h | h <;> rcases e2 with h' | h' <;> rw [h, h'] <;> simp
  refine ⟨q, C.coefficient * σ, p2.reset, hsign, ?_, ?_, rfl, ?_, ?_⟩
  · exact h5.same.width.trans (h2.width.trans hw)
  · exact h5.same.degree.trans (h2.degree.trans hpd)
  · unfold residueFunctionSingle
    rw [if_neg (by simpa using hv), if_neg (by simpa using hdet)]
    have hany : ((List.ofFn fun i => readGen generic (C.rays i)).any fun g => decide (g.r = 0 ∧ g.t = 0)) = false := by
      rw [List.any_eq_false]
      intro g hg
      simpa using hgen g hg
    dsimp only
    rw [hany, if_neg (by simp)]
    have e1' : simplify (List.ofFn fun i => readGen generic (C.rays i)) ⟨[], C.coefficient, 0, 0⟩ = ⟨gs', C.coefficient * σ, ρ, θ⟩ := e1
    rw [e1', hexp]
    have h1' : coneExpression junk (poleOrder (List.ofFn fun i => readGen generic (C.rays i))) ⟨gs', C.coefficient * σ, ρ, θ⟩ p = .ok (c, p1) := h1
    rw [h1']
    dsimp only
    rw [h4]
    dsimp only
    rw [if_neg (by omega)]
    congr 2
    funext k
    split
    · rename_i hk
      rw [h6 k hk]
      congr 1
      rcases hsign with h | h
      · rw [h, if_pos rfl, coeff_mk, one_mul]
      · rw [h, if_neg (by norm_num), map_neg, coeff_mk]
        ring
    · rfl
  · -- the identity
    have hS : (HahnSeries.single θ (wz ρ) : HahnSeries ℤ (PowerSeries ℚ)) = tau (toQQ (numSeries ⟨gs', C.coefficient * σ, ρ, θ⟩)) := by
      rw [numSeries, map_mul, map_mul, tau_onePlus, tau_toQQ_CX, Int.toNat_of_nonneg e3, Int.toNat_of_nonneg e4, HahnSeries.single_mul_single, zero_add,
        mul_one]
    have hS0 : (HahnSeries.single θ (wz ρ) : HahnSeries ℤ (PowerSeries ℚ)) ≠ 0 := by
      intro h0
      have := (HahnSeries.single_eq_zero_iff).1 h0
      have h1 := PolySubst.constCoeff_wz ρ
      rw [this] at h1
      simp at h1
    have hX : tau (toQQ X) = HahnSeries.C X := by
      rw [← tau_X]; congr 1; simp [toQQ]
    apply mul_right_cancel₀ hS0
    rw [gens_red gs' e5, map_mul, map_mul, map_pow, map_pow, hX, e7] at e8
    have hq' : tau (toQQ (gs'.map redSeries).prod) * tau q = HahnSeries.single θ (wz ρ) := by
      rw [hS, ← map_mul, hq]
    generalize (HahnSeries.single θ (wz ρ) : HahnSeries ℤ (PowerSeries ℚ)) = S at *
    generalize ((coneGens generic C).map factor).prod = P at *
    generalize tau (toQQ (gs'.map redSeries).prod) = Rd at *
    rw [← hq'] at e8 ⊢
    push_cast
    have : P * (C.coefficient * σ * tau q) * (Rd * tau q) = C.coefficient * tau q * (P * σ * (Rd * tau q)) := by ring
    rw [this, e8]
    ring

/-! ### All cones -/

section
variable (χ : Multiplicative (Lat m) →* PowerSeries ℚ)

/-- The value of Laurent polynomials as a ring homomorphism. -/
noncomputable def valHom : LP (m + 1) →+* HahnSeries ℤ (PowerSeries ℚ) where
  toFun := val χ
  map_one' := val_one χ
  map_mul' := val_mul χ
  map_zero' := by
    have := val_sub χ (0 : LP (m + 1)) 0
    rw [sub_self, sub_self] at this
    exact this
  map_add' p q := by
    unfold val
    rw [ExpSubst.emb_add, Psi_add χ _ _ (tame_emb _) (tame_emb _)]

/-- If the cones add up to `f`, up to negligible functions, so do their generating functions. -/
theorem cleared_tame {ι : Type*} [Fintype ι] [DecidableEq ι] (eps : ι → ℤ) (D : ι → LP (m + 1)) (K : ι → Lat (m + 1) → ℚ)
    (hK : ∀ i, act (D i) (K i) = emb 1) (f : Lat (m + 1) → ℚ) (hf : f ∈ tame m) (g : Lat (m + 1) → ℚ)
    (hg : g ∈ negligible (m + 1)) (h : ∑ i, (eps i : ℚ) • K i = f + g) :
    (∏ i, valHom χ (D i)) * Psi χ f = ∑ i, (eps i : HahnSeries ℤ (PowerSeries ℚ)) * ∏ j ∈ Finset.univ.erase i, valHom χ (D j) := by
  obtain ⟨L, hL, hLg⟩ := ExpSubst.negligible_killed hg
  have key : act (∏ i, D i) f = emb (∑ i, (eps i : LP (m + 1)) * ∏ j ∈ Finset.univ.erase i, D j) := by
    rw [← sub_eq_zero]
    refine tame_cancel L hL _ (Submodule.sub_mem _ (tame_act _ f hf) (tame_emb _)) ?_
    have h1 := congrArg (act (L * ∏ i, D i)) h
    have h2 : act (L * ∏ i, D i) g = 0 := by
      rw [mul_comm, map_mul]
      show act _ (act L g) = 0
      rw [hLg, map_zero]
    rw [map_add, h2, add_zero, map_sum] at h1
    rw [map_sub, ExpSubst.act_emb, sub_eq_zero]
    have h3 : act L (act (∏ i, D i) f) = act (L * ∏ i, D i) f := by rw [map_mul]; rfl
    rw [h3, ← h1, Finset.mul_sum]
    have h4 : ∀ i, act (L * ∏ i, D i) ((eps i : ℚ) • K i) = ExpSubst.embL (L * ((eps i : LP (m + 1)) * ∏ j ∈ Finset.univ.erase i, D j)) := by
      intro i
      rw [map_smul, ← Finset.prod_erase_mul _ _ (Finset.mem_univ i), ← mul_assoc, map_mul]
      show (eps i : ℚ) • act (L * _) (act (D i) (K i)) = emb _
      rw [hK, ExpSubst.act_emb, ← ExpSubst.emb_smul, mul_one]
      congr 1
      rw [Algebra.smul_def]
      have : (algebraMap ℚ (LP (m + 1))) (eps i : ℚ) = (eps i : LP (m + 1)) := by simp
      rw [this]
      ring
    simp only [h4]
    rw [← map_sum]
    rfl
  have h5 := congrArg (Psi χ) key
  rw [Psi_act χ _ f hf] at h5
  have h6 : val χ (∏ i, D i) = ∏ i, valHom χ (D i) := map_prod (valHom χ) _ _
  have h7 : Psi χ (emb (∑ i, (eps i : LP (m + 1)) * ∏ j ∈ Finset.univ.erase i, D j)) =
      ∑ i, (eps i : HahnSeries ℤ (PowerSeries ℚ)) * ∏ j ∈ Finset.univ.erase i, valHom χ (D j) := by
    show valHom χ _ = _
    rw [map_sum]
    refine Finset.sum_congr rfl fun i _ => ?_
    rw [map_mul, map_intCast, map_prod]
  rw [h6, h7] at h5
  exact h5

/-- **Counting by heights.** -/
theorem heights_count {ι : Type*} [Fintype ι] [DecidableEq ι] (eps : ι → ℤ) (D : ι → LP (m + 1)) (K : ι → Lat (m + 1) → ℚ)
    (hK : ∀ i, act (D i) (K i) = emb 1) (f : Lat (m + 1) → ℚ) (hf : f ∈ tame m) (g : Lat (m + 1) → ℚ)
    (hg : g ∈ negligible (m + 1)) (h : ∑ i, (eps i : ℚ) • K i = f + g) (q : ι → PowerSeries (PowerSeries ℚ)) (σ : ι → ℤ) (ord : ι → ℕ)
    (hord : ∀ i, ord i ≤ m + 1) (heps : ∀ i, eps i = 1 ∨ eps i = -1)
    (hq : ∀ i, valHom χ (D i) * ((σ i : HahnSeries ℤ (PowerSeries ℚ)) * tau (q i)) = (eps i : HahnSeries ℤ (PowerSeries ℚ)) * (HahnSeries.C X) ^ ord i)
    (n : ℕ) : constantCoeff (slice χ f n) = ∑ i, (σ i : ℚ) * coeff n (coeff (ord i) (q i)) := by
  have h1 := cleared_tame χ eps D K hK f hf g hg h
  have hs0 : (HahnSeries.C X : HahnSeries ℤ (PowerSeries ℚ)) ≠ 0 := by
    intro h0
    have := (HahnSeries.single_eq_zero_iff).1 h0
    exact PowerSeries.X_ne_zero this
  have heps2 : ∀ i, (eps i : HahnSeries ℤ (PowerSeries ℚ)) * eps i = 1 := by
    intro i
    rw [← Int.cast_mul]
    rcases heps i with h | h <;> rw [h] <;> simp
  have hD0 : ∀ i, valHom χ (D i) ≠ 0 := by
    intro i h0
    have := hq i
    rw [h0, zero_mul] at this
    have h2 := congrArg (fun x => (eps i : HahnSeries ℤ (PowerSeries ℚ)) * x) this
    simp only [mul_zero, ← mul_assoc, heps2, one_mul] at h2
    exact pow_ne_zero _ hs0 h2.symm
  have hP : ∏ i, valHom χ (D i) ≠ 0 := Finset.prod_ne_zero_iff.mpr fun i _ => hD0 i
  have h2 : (HahnSeries.C X) ^ (m + 1) * Psi χ f = ∑ i, (HahnSeries.C X) ^ (m + 1 - ord i) * ((σ i : HahnSeries ℤ (PowerSeries ℚ)) * tau (q i)) := by
    apply mul_left_cancel₀ hP
    rw [mul_left_comm, h1, Finset.mul_sum, Finset.mul_sum]
    refine Finset.sum_congr rfl fun i _ => ?_
    rw [← Finset.prod_erase_mul _ _ (Finset.mem_univ i)]
    have e : (HahnSeries.C X : HahnSeries ℤ (PowerSeries ℚ)) ^ (m + 1) = (HahnSeries.C X) ^ (m + 1 - ord i) * (HahnSeries.C X) ^ ord i := by
      rw [← pow_add, Nat.sub_add_cancel (hord i)]
    have : ∀ a b c d e : HahnSeries ℤ (PowerSeries ℚ), a * b * (c * d) = a * c * (b * d) := fun a b c d e => by ring
    rw [this _ _ _ _ 0, hq i, e]
    ring
  have h3 := congrArg (fun x => coeff (m + 1) (x.coeff (n : ℤ))) h2
  beta_reduce at h3
  rw [← map_pow, HahnSeries.C_apply, HahnSeries.coeff_single_zero_mul, Psi_coeff χ f hf, coeff_X_pow_mul', if_pos le_rfl, Nat.sub_self,
    coeff_zero_eq_constantCoeff_apply, HahnSeries.coeff_sum, map_sum] at h3
  rw [h3]
  refine Finset.sum_congr rfl fun i _ => ?_
  have hcast : (σ i : HahnSeries ℤ (PowerSeries ℚ)) = HahnSeries.C (C (σ i : ℚ)) := by
    rw [← map_intCast (HahnSeries.C (Γ := ℤ) (R := PowerSeries ℚ)), ← map_intCast (C (R := ℚ))]
  rw [hcast, ← map_pow, HahnSeries.C_apply, HahnSeries.coeff_single_zero_mul, HahnSeries.C_apply, HahnSeries.coeff_single_zero_mul, coeff_X_pow_mul',
    if_pos (Nat.sub_le _ _), Nat.sub_sub_self (hord i), coeff_C_mul, coeff_tau]

end

end Verif.Series
