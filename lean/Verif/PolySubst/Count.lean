import Verif.PolySubst.Term
import Verif.ExpSubst.Total

/-!
# Counting lattice points by polynomial substitution (C70)
-/

namespace Verif.PolySubst

open PowerSeries
open Verif.Barvinok (Cone Mat Vec Ntl Variant rel)
open Verif.Barvinok.Spec
open Verif.ExpSubst

variable {n m : ℕ}

/-! ### The substitution -/

/-- `x^u ↦ (1 + s)^⟨λ,u⟩`. -/
noncomputable def psiHom (lam : Lat n) : Multiplicative (Lat n) →* PowerSeries ℚ where
  toFun u := wz (ip lam u.toAdd)
  map_one' := by
    have : ip lam (Multiplicative.toAdd 1) = 0 := by
      unfold ip
      exact Finset.sum_eq_zero fun k _ => by
        show lam k * (0 : Lat n) k = 0
        simp
    rw [this, wz_zero]
  map_mul' u v := by rw [toAdd_mul, ip_add, wz_add]

/-- The substitution on Laurent polynomials. -/
noncomputable def psi (lam : Lat n) : LP n →ₐ[ℚ] PowerSeries ℚ := AddMonoidAlgebra.lift ℚ (PowerSeries ℚ) (Lat n) (psiHom lam)

theorem psi_mono (lam u : Lat n) : psi lam (mono u) = wz (ip lam u) := by
  unfold psi mono
  rw [AddMonoidAlgebra.lift_single, one_smul]
  rfl

theorem psi_gf (lam : Lat n) (S : List (Lat n)) : psi lam (gf S) = (S.map fun p => wz (ip lam p)).sum := by
  unfold gf
  rw [map_list_sum, List.map_map]
  congr 1
  exact List.map_congr_left fun p _ => psi_mono lam p

theorem constCoeff_psi_gf (lam : Lat n) (S : List (Lat n)) : constantCoeff (psi lam (gf S)) = (S.length : ℚ) := by
  rw [psi_gf]
  induction S with
  | nil => simp
  | cons a S ih =>
    rw [List.map_cons, List.sum_cons, map_add, ih, constCoeff_wz, List.length_cons]
    push_cast
    ring

/-- A substitution homomorphism applied to the cleared identity. -/
theorem substituted_hom {ι : Type*} [Fintype ι] [DecidableEq ι] (Φ : LP n →ₐ[ℚ] PowerSeries ℚ) (eps : ι → ℚ)
    (D N : ι → LP n) (s : LP n)
    (h : (∏ i, D i) * s = ∑ i, eps i • ((∏ j ∈ Finset.univ.erase i, D j) * N i)) (d : ℕ)
    (Q : ι → PowerSeries ℚ) (hQ : ∀ i, Φ (D i) * Q i = X ^ d) :
    X ^ d * Φ s = ∑ i, eps i • (Φ (N i) * Q i) := by
  have hD : ∀ i, Φ (D i) ≠ 0 := by
    intro i h0
    have := hQ i
    rw [h0, zero_mul] at this
    exact pow_ne_zero d X_ne_zero this.symm
  have hP : ∏ i, Φ (D i) ≠ 0 := Finset.prod_ne_zero_iff.mpr fun i _ => hD i
  apply mul_left_cancel₀ hP
  have h1 := congrArg Φ h
  rw [map_mul, map_prod, map_sum] at h1
  calc (∏ i, Φ (D i)) * (X ^ d * Φ s) = X ^ d * ((∏ i, Φ (D i)) * Φ s) := by ring
    _ = X ^ d * ∑ i, Φ (eps i • ((∏ j ∈ Finset.univ.erase i, D j) * N i)) := by rw [h1]
    _ = ∑ i, (∏ i, Φ (D i)) * (eps i • (Φ (N i) * Q i)) := by
        rw [Finset.mul_sum]
        refine Finset.sum_congr rfl fun i _ => ?_
        rw [map_smul, map_mul, map_prod, ← hQ i,
          ← Finset.prod_erase_mul _ _ (Finset.mem_univ i), mul_smul_comm, mul_smul_comm]
        congr 1
        ring
    _ = _ := by rw [← Finset.mul_sum]

/-- The series by which the numerators of a cone are multiplied. -/
noncomputable def series (lam : Lat n) (rays : List (Lat n)) : PowerSeries ℚ := (rays.map fun r => F (ip lam r)).prod

/-- The denominator of a cone. -/
noncomputable def den' (rays : List (Lat n)) : LP n := (rays.map fun r => 1 - mono r).prod

theorem psi_den (lam : Lat n) (rays : List (Lat n)) (h : ∀ r ∈ rays, ip lam r ≠ 0) :
    psi lam (den' rays) * series lam rays = X ^ rays.length := by
  unfold den' series
  induction rays with
  | nil => simp
  | cons r l ih =>
    rw [List.map_cons, List.prod_cons, List.map_cons, List.prod_cons, map_mul, mul_mul_mul_comm, ih fun x hx => h x (List.mem_cons_of_mem _ hx),
      map_sub, map_one, psi_mono, F_spec _ (h r List.mem_cons_self), List.length_cons, pow_succ, mul_comm]

/-- The exact contribution of a cone: signed, with sign `+` for the whole count. -/
noncomputable def exactCone (lam : Lat n) (coefficient : ℤ) (rays pts : List (Lat n)) : ℚ :=
  coefficient * coeff rays.length (psi lam (gf pts) * series lam rays)

/-- **Counting.** If the cones add up to the indicator of `S`, up to negligible functions, the exact contributions add up to the number of points
of `S`. -/
theorem exact_count {β : Type*} (lam : Lat n) (d : ℕ) (cones : List β) (eps : β → ℤ) (rays pts : β → List (Lat n))
    (hd : ∀ c ∈ cones, (rays c).length = d) (K : β → Lat n → ℚ)
    (hK : ∀ c ∈ cones, act (den' (rays c)) (K c) = emb (gf (pts c))) (hgen : ∀ c ∈ cones, ∀ r ∈ rays c, ip lam r ≠ 0)
    (S : List (Lat n)) (hS : S.Nodup) (g : Lat n → ℚ) (hg : g ∈ negligible n)
    (h : ∀ p, (cones.map fun c => (eps c : ℚ) * K c p).sum = (if p ∈ S then 1 else 0) + g p) :
    (cones.map fun c => exactCone lam (eps c) (rays c) (pts c)).sum = (S.length : ℚ) := by
  have h1 := cleared (ι := Fin cones.length) (fun i => (eps cones[i] : ℚ)) (fun i => den' (rays cones[i])) (fun i => gf (pts cones[i]))
    (fun i => K cones[i]) (fun i => hK _ (List.getElem_mem _)) (gf S) g hg (by
      funext p
      rw [Finset.sum_apply, Pi.add_apply, emb_gf S hS, ← h p, ← List.sum_ofFn]
      congr 1
      apply List.ext_getElem (by simp)
      intro i h1 h2
      simp)
  have h2 := congrArg (coeff d) (substituted_hom (psi lam) _ _ _ _ h1 d (fun i => series lam (rays cones[i])) (fun i => by
    have := psi_den lam (rays cones[i]) (hgen _ (List.getElem_mem _))
    rw [hd cones[i] (List.getElem_mem _)] at this
    exact this))
  rw [coeff_X_pow_mul', if_pos le_rfl, Nat.sub_self, coeff_zero_eq_constantCoeff_apply, constCoeff_psi_gf, map_sum] at h2
  rw [h2, ← List.sum_ofFn]
  congr 1
  apply List.ext_getElem (by simp)
  intro i h3 h4
  simp only [List.getElem_map, List.getElem_ofFn, map_smul, smul_eq_mul, exactCone]
  rw [hd _ (List.getElem_mem _)]
  rfl

/-! ### Rounding errors -/

/-- `t` is at most the exact value `x`, and less than `k` below it. -/
def Below (x : ℚ) (k : ℕ) (t : ℤ) : Prop := 0 ≤ x - t ∧ (x - t < k ∨ (x = t ∧ k = 0))

theorem below_floor (x : ℚ) : Below x 1 ⌊x⌋ := by
  refine ⟨by linarith [Int.floor_le x], Or.inl ?_⟩
  have := Int.lt_floor_add_one x
  push_cast
  linarith

theorem below_zero : Below 0 0 0 := ⟨by simp, Or.inr (by simp)⟩

theorem Below.add {x y : ℚ} {k l : ℕ} {t u : ℤ} (h1 : Below x k t) (h2 : Below y l u) : Below (x + y) (k + l) (t + u) := by
  obtain ⟨a1, b1⟩ := h1
  obtain ⟨a2, b2⟩ := h2
  refine ⟨by push_cast; linarith, ?_⟩
  push_cast
  rcases b1 with b1 | ⟨b1, rfl⟩
  · left
    rcases b2 with b2 | ⟨b2, rfl⟩
    · linarith
    · rw [b2]; push_cast; linarith
  · rcases b2 with b2 | ⟨b2, rfl⟩
    · left; rw [b1]; push_cast; linarith
    · right; rw [b1, b2]; simp

/-- **The final rounding.** If the total is less than half a unit below `±N·T`, the number printed is `N`. -/
theorem round_ok (T : ℤ) (d : ℕ) (N : ℕ) (k : ℕ) (hk : 2 * (k : ℤ) ≤ T) (hT : 0 < T) (t : ℤ)
    (h : Below ((T : ℚ) * ((-1) ^ d * N)) k t) : roundTotal T t = N := by
  obtain ⟨h1, h2⟩ := h
  have hN : 0 ≤ T * N := mul_nonneg hT.le (Int.natCast_nonneg _)
  obtain ⟨e, he, he0, hek⟩ : ∃ e : ℤ, t = T * ((-1) ^ d * N) - e ∧ 0 ≤ e ∧ (2 * e < T) := by
    refine ⟨T * ((-1) ^ d * N) - t, by ring, ?_, ?_⟩
    · have : (0 : ℚ) ≤ ((T * ((-1) ^ d * N) - t : ℤ) : ℚ) := by push_cast; exact h1
      exact_mod_cast this
    · rcases h2 with h2 | ⟨h2, rfl⟩
      · have : ((T * ((-1) ^ d * N) - t : ℤ) : ℚ) < (k : ℤ) := by push_cast; exact h2
        have : T * ((-1) ^ d * N) - t < (k : ℤ) := by exact_mod_cast this
        omega
      · have : ((T * ((-1) ^ d * N) : ℤ) : ℚ) = t := by push_cast; exact h2
        have : T * ((-1) ^ d * N) = t := by exact_mod_cast this
        omega
  unfold roundTotal
  rw [Int.fdiv_eq_ediv_of_nonneg _ hT.le, Int.fdiv_eq_ediv_of_nonneg T (by norm_num : (0 : ℤ) ≤ 2)]
  have hcomm : T * (N : ℤ) = N * T := mul_comm _ _
  have key : ∀ P x : ℤ, P = T * N → P ≤ x → x < P + T → x / T = N := by
    intro P x hP h1 h2
    rw [Int.ediv_eq_iff_of_pos hT]
    subst hP
    constructor <;> linarith
  rcases neg_one_pow_eq_or ℤ d with hs | hs
  · rw [hs, one_mul] at he
    rcases Nat.eq_zero_or_pos N with rfl | hN0
    · rw [he]
      refine key 0 _ (by simp) ?_ ?_ <;>
      · simp only [Nat.cast_zero, mul_zero, zero_sub, abs_neg, abs_of_nonneg he0]
        omega
    · have hNT : T ≤ T * N := le_mul_of_one_le_right hT.le (by exact_mod_cast hN0)
      generalize hP : T * (N : ℤ) = P at *
      rw [he, abs_of_nonneg (by omega)]
      refine key P _ rfl ?_ ?_ <;> omega
  · rw [hs] at he
    have : t = -(T * N + e) := by rw [he]; ring
    generalize hP : T * (N : ℤ) = P at *
    rw [this, abs_neg, abs_of_nonneg (by omega)]
    refine key P _ rfl ?_ ?_ <;> omega

end Verif.PolySubst
