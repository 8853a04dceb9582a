import Verif.GenFile.Text
import Verif.PolySubst.OfflineRun
import Verif.Digging.Pipeline
import Mathlib.Algebra.Algebra.Rat
import Mathlib.RingTheory.Localization.FractionRing
import Mathlib.Algebra.MvPolynomial.Basic
import Mathlib.RingTheory.MvPolynomial.Basic

/-!
# The value of the generating function of the lattice points (C82)
-/

namespace Verif.GenFile

open Verif.Barvinok (Cone Mat Vec Ntl Variant rel)
open Verif.Barvinok.Spec
open Verif.ExpSubst
open Verif.PolySubst

variable {K : Type*} [Field K] {x : ℕ → K} {n m k : ℕ}

theorem monomial_zero : monomial x (0 : Vec n) = 1 := by simp [monomial]

theorem monomial_add (hx : ∀ i < n, x i ≠ 0) (u v : Vec n) : monomial x (u + v) = monomial x u * monomial x v := by
  unfold monomial
  rw [← Finset.prod_mul_distrib]
  exact Finset.prod_congr rfl fun i _ => zpow_add₀ (hx i.val i.isLt) _ _

theorem monomial_ne (hx : ∀ i < n, x i ≠ 0) (u : Vec n) : monomial x u ≠ 0 :=
  Finset.prod_ne_zero_iff.2 fun i _ => zpow_ne_zero _ (hx i.val i.isLt)

/-- `x^u` as a homomorphism. -/
def monomialHom (hx : ∀ i < n, x i ≠ 0) : Multiplicative (Lat n) →* K where
  toFun u := monomial x u.toAdd
  map_one' := monomial_zero
  map_mul' u v := monomial_add hx u.toAdd v.toAdd

variable [CharZero K]

/-- Evaluation of Laurent polynomials. -/
noncomputable def evalHom (hx : ∀ i < n, x i ≠ 0) : LP n →ₐ[ℚ] K := AddMonoidAlgebra.lift ℚ K (Lat n) (monomialHom hx)

theorem evalHom_mono (hx : ∀ i < n, x i ≠ 0) (u : Lat n) : evalHom hx (mono u) = monomial x u := by
  unfold evalHom mono
  rw [AddMonoidAlgebra.lift_single, one_smul]
  rfl

theorem evalHom_gf (hx : ∀ i < n, x i ≠ 0) (S : List (Lat n)) : evalHom hx (gf S) = (S.map (monomial x)).sum := by
  unfold gf
  rw [map_list_sum, List.map_map]
  congr 1
  exact List.map_congr_left fun u _ => evalHom_mono hx u

theorem evalHom_den (hx : ∀ i < n, x i ≠ 0) (rays : List (Lat n)) : evalHom hx (den' rays) = (rays.map fun r => 1 - monomial x r).prod := by
  unfold den'
  rw [map_list_prod, List.map_map]
  congr 1
  refine List.map_congr_left fun u _ => ?_
  simp only [Function.comp, map_sub, map_one, evalHom_mono]

/-- **Brion's identity, evaluated.** If signed cones add up to the indicator of a finite set `S` up to functions with lines, then the rational functions of the cones
add up to the sum of the monomials of `S`. -/
theorem cones_value {β : Type*} (hx : ∀ i < n, x i ≠ 0) (cones : List β) (eps : β → ℤ) (rays pts : β → List (Lat n)) (F : β → Lat n → ℚ)
    (hF : ∀ c ∈ cones, act (den' (rays c)) (F c) = emb (gf (pts c))) (hgen : ∀ c ∈ cones, ∀ r ∈ rays c, monomial x r ≠ 1)
    (S : List (Lat n)) (hS : S.Nodup) (g : Lat n → ℚ) (hg : g ∈ negligible n)
    (h : ∀ p, (cones.map fun c => (eps c : ℚ) * F c p).sum = (if p ∈ S then 1 else 0) + g p) :
    (cones.map fun c => coneValue x ⟨eps c, pts c, rays c⟩).sum = (S.map (monomial x)).sum := by
  have h1 := cleared (ι := Fin cones.length) (fun i => (eps cones[i] : ℚ)) (fun i => den' (rays cones[i])) (fun i => gf (pts cones[i]))
    (fun i => F cones[i]) (fun i => hF _ (List.getElem_mem _)) (gf S) g hg (by
      funext p
      rw [Finset.sum_apply, Pi.add_apply, emb_gf S hS, ← h p, ← List.sum_ofFn]
      congr 1
      apply List.ext_getElem (by simp)
      intro i h1 h2
      simp)
  have h2 := congrArg (evalHom hx) h1
  rw [map_mul, map_prod, map_sum, evalHom_gf] at h2
  have hd : ∀ i : Fin cones.length, evalHom hx (den' (rays cones[i])) ≠ 0 := by
    intro i
    rw [evalHom_den, ne_eq, List.prod_eq_zero_iff]
    intro h0
    obtain ⟨r, hr, e⟩ := List.mem_map.1 h0
    exact hgen _ (List.getElem_mem _) r hr (sub_eq_zero.1 e).symm
  have hprod : ∏ i : Fin cones.length, evalHom hx (den' (rays cones[i])) ≠ 0 := Finset.prod_ne_zero_iff.2 fun i _ => hd i
  apply mul_left_cancel₀ hprod
  rw [h2]
  have e : (cones.map fun c => coneValue x ⟨eps c, pts c, rays c⟩).sum = ∑ i : Fin cones.length, coneValue x ⟨eps cones[i], pts cones[i], rays cones[i]⟩ := by
    rw [← List.sum_ofFn]
    congr 1
    apply List.ext_getElem (by simp)
    intro i h1 h2
    simp
  rw [e, Finset.mul_sum]
  refine Finset.sum_congr rfl fun i _ => ?_
  rw [map_smul, map_mul, map_prod, ← Finset.prod_erase_mul _ _ (Finset.mem_univ i), evalHom_gf, Algebra.smul_def]
  unfold coneValue
  rw [← evalHom_den hx]
  have := hd i
  simp only [eq_ratCast, Rat.cast_intCast]
  field_simp

/-! ## The points of all cones -/

/-- The points are computed for every cone; there is at least one. -/
theorem computePoints_all (X : Smith.Xgcd) (fuel : ℕ) : ∀ (D : List (Cone (m + 1))), (∀ C ∈ D, Ready fuel C) →
    ∃ pts : Cone (m + 1) → List (Vec (m + 1)), computePoints X fuel D = .ok (D.map fun C => ⟨C.coefficient, pts C, List.ofFn fun i => C.rays i⟩) ∧
      (∀ C ∈ D, act (den' (List.ofFn fun i => C.rays i)) (coneInd C.rays C.vertex) = emb (gf (pts C))) ∧ 
      ∀ C ∈ D, ((pts C).length : ℤ) = |C.rays.det| ∧ pts C ≠ [] := by
  intro D hD
  have hex : ∀ C ∈ D, ∃ pt : List (Vec (m + 1)), (∃ F, C.facets = some F ∧ Piped.points X (pipedInput C F) fuel = .ok pt) ∧
      act (den' (List.ofFn fun i => C.rays i)) (coneInd C.rays C.vertex) = emb (gf pt) ∧ (pt.length : ℤ) = |C.rays.det| ∧ pt ≠ [] := by
    intro C hC
    obtain ⟨F, hF, hG⟩ := (hD C hC).facets
    obtain ⟨pts, a1, a2, a3, a4⟩ := Piped.c13_points_exact X (pipedInput C F) hG (hD C hC).small fuel (hD C hC).fuel
    refine ⟨pts, ⟨F, hF, a1⟩, ?_, a3, ?_⟩
    · rw [den'_ofFn]
      exact act_cone C F hG _ a2 fun p => by rw [a4, pipedInput_vertex]; rfl
    · rintro rfl
      have h1 := Int.one_le_abs (show C.rays.det ≠ 0 from hG.ne)
      have a3' : (([] : List (Vec (m + 1))).length : ℤ) = |C.rays.det| := a3
      rw [← a3'] at h1
      simp at h1
  choose! pt hpt using hex
  refine ⟨pt, ?_, fun C hC => (hpt C hC).2.1, fun C hC => (hpt C hC).2.2⟩
  clear hD
  induction D with
  | nil => rfl
  | cons C Cs ih =>
    obtain ⟨F, hF, hP⟩ := (hpt C List.mem_cons_self).1
    unfold computePoints
    simp only [hF, hP, ih fun D hD => hpt D (List.mem_cons_of_mem _ hD)]
    rfl

/-! ## Coordinates -/

omit [CharZero K] in
theorem monomial_sum (hx : ∀ i < k, x i ≠ 0) (B : Fin n → Vec k) (y : ℕ → K) (hy : ∀ j : Fin n, y j.val = monomial x (B j)) (u : Vec n) :
    monomial x (fun l => ∑ j, B j l * u j) = monomial y u := by
  have h1 : (fun l => ∑ j, B j l * u j) = ∑ j, (fun l => B j l * u j) := by
    funext l
    rw [Finset.sum_apply]
  have hs : ∀ (T : Finset (Fin n)), monomial x (∑ j ∈ T, (fun l => B j l * u j)) = ∏ j ∈ T, monomial x (fun l => B j l * u j) := by
    intro T
    classical
    induction T using Finset.induction_on with
    | empty => simp [monomial_zero]
    | insert j T hj ih => rw [Finset.sum_insert hj, Finset.prod_insert hj, monomial_add hx, ih]
  rw [h1, hs]
  unfold monomial
  refine Finset.prod_congr rfl fun j _ => ?_
  rw [hy j]
  unfold monomial
  rw [← Finset.prod_zpow]
  exact Finset.prod_congr rfl fun l _ => zpow_mul _ _ _

/-! ## The field of rational functions -/

/-- The field of rational functions with rational coefficients in `n` variables. -/
abbrev RatFun (n : ℕ) := FractionRing (MvPolynomial (Fin n) ℚ)

/-- The variables (and `1` where there is none). -/
noncomputable def indet (n : ℕ) (i : ℕ) : RatFun n :=
  if h : i < n then algebraMap (MvPolynomial (Fin n) ℚ) (RatFun n) (MvPolynomial.X ⟨i, h⟩) else 1

theorem indet_ne (i : ℕ) : indet n i ≠ 0 := by
  unfold indet
  split
  · exact (map_ne_zero_iff _ (IsFractionRing.injective _ _)).2 (MvPolynomial.X_ne_zero _)
  · exact one_ne_zero

theorem monomial_nat (u : Fin n → ℕ) : monomial (indet n) (fun i => (u i : ℤ)) =
    algebraMap (MvPolynomial (Fin n) ℚ) (RatFun n) (MvPolynomial.monomial (Finsupp.equivFunOnFinite.symm u) 1) := by
  unfold monomial
  rw [MvPolynomial.monomial_eq, MvPolynomial.C_1, one_mul, Finsupp.prod_fintype _ _ (fun i => pow_zero _), map_prod]
  refine Finset.prod_congr rfl fun i _ => ?_
  rw [zpow_natCast, map_pow]
  congr 1
  unfold indet
  rw [dif_pos i.isLt]

/-- No non-trivial monomial is constant. -/
theorem monomial_indet_ne_one (u : Vec n) (hu : u ≠ 0) : monomial (indet n) u ≠ 1 := by
  intro h
  apply hu
  have hx : ∀ i < n, indet n i ≠ 0 := fun i _ => indet_ne i
  have e : (fun i => ((u i).toNat : ℤ)) = u + fun i => ((-u i).toNat : ℤ) := by
    funext i
    show ((u i).toNat : ℤ) = u i + ((-u i).toNat : ℤ)
    omega
  have h1 : monomial (indet n) (fun i => ((u i).toNat : ℤ)) = monomial (indet n) (fun i => ((-u i).toNat : ℤ)) := by
    rw [e, monomial_add hx, h, one_mul]
  rw [monomial_nat, monomial_nat] at h1
  have h2 := IsFractionRing.injective (MvPolynomial (Fin n) ℚ) (RatFun n) h1
  have h3 := MvPolynomial.monomial_left_injective (one_ne_zero (α := ℚ)) h2
  have h4 := Finsupp.equivFunOnFinite.symm.injective h3
  funext i
  have := congrFun h4 i
  simp only [Pi.zero_apply] at this ⊢
  omega

end Verif.GenFile
