import Mathlib.Algebra.MonoidAlgebra.NoZeroDivisors
import Mathlib.Algebra.MonoidAlgebra.Basic
import Mathlib.Algebra.Group.UniqueProds.Basic
import Mathlib.RingTheory.PowerSeries.Exp
import Mathlib.RingTheory.PowerSeries.Inverse
import Mathlib.LinearAlgebra.Span.Basic
import Mathlib.Algebra.Order.Ring.Int
import Mathlib.Algebra.Order.Ring.Rat
import Mathlib.Tactic.LinearCombination

/-!
# Lattice point functions as a module over Laurent polynomials

Purely mathematical; nothing here depends on the program. Laurent polynomials in `n` variables
with rational coefficients act on functions `ℤⁿ → ℚ` by translation; a function annihilated by a
non-zero Laurent polynomial plays no role in the exponential substitution.
-/

namespace Verif.ExpSubst

open PowerSeries

variable {n : ℕ}

/-- The lattice. -/
abbrev Lat (n : ℕ) := Fin n → ℤ

/-- Laurent polynomials. -/
abbrev LP (n : ℕ) := AddMonoidAlgebra ℚ (Lat n)

/-- Translation of a function by `u`. -/
def shift (u : Lat n) : Module.End ℚ (Lat n → ℚ) where
  toFun f p := f (p - u)
  map_add' _ _ := rfl
  map_smul' _ _ := rfl

/-- Translations compose. -/
def shiftHom : Multiplicative (Lat n) →* Module.End ℚ (Lat n → ℚ) where
  toFun u := shift u.toAdd
  map_one' := by
    ext f p
    simp [shift]
  map_mul' u v := by
    apply LinearMap.ext
    intro f
    funext p
    show f (p - (u.toAdd + v.toAdd)) = f (p - u.toAdd - v.toAdd)
    rw [sub_sub]

/-- The action of Laurent polynomials. -/
noncomputable def act : LP n →ₐ[ℚ] Module.End ℚ (Lat n → ℚ) :=
  AddMonoidAlgebra.lift ℚ (Module.End ℚ (Lat n → ℚ)) (Lat n) shiftHom

/-- The monomial `x^u`. -/
noncomputable def mono (u : Lat n) : LP n := AddMonoidAlgebra.single u 1

theorem mono_zero : mono (0 : Lat n) = 1 := rfl

theorem mono_add (u v : Lat n) : mono (u + v) = mono u * mono v := by
  unfold mono
  rw [AddMonoidAlgebra.single_mul_single, one_mul]

theorem act_mono (u : Lat n) (f : Lat n → ℚ) (p : Lat n) : act (mono u) f p = f (p - u) := by
  unfold act mono
  rw [AddMonoidAlgebra.lift_single]
  simp [shiftHom, shift]

/-- The function of coefficients of a Laurent polynomial: it acting on the indicator of the
origin. -/
noncomputable def emb (a : LP n) : Lat n → ℚ := act a (Pi.single 0 1)

theorem emb_add (a b : LP n) : emb (a + b) = emb a + emb b := by
  unfold emb; rw [map_add]; rfl

theorem act_emb (a b : LP n) : act a (emb b) = emb (a * b) := by
  unfold emb; rw [map_mul]; rfl

theorem emb_mono (u p : Lat n) : emb (mono u) p = if p = u then 1 else 0 := by
  unfold emb
  rw [act_mono, Pi.single_apply]
  simp only [sub_eq_zero]

theorem emb_smul (c : ℚ) (a : LP n) : emb (c • a) = c • emb a := by
  unfold emb; rw [map_smul]; rfl

/-- `emb` as a linear map. -/
noncomputable def embL : LP n →ₗ[ℚ] (Lat n → ℚ) where
  toFun := emb
  map_add' := emb_add
  map_smul' := emb_smul

theorem emb_coeff (a : LP n) (p : Lat n) : emb a p = a.coeff p := by
  induction a using AddMonoidAlgebra.induction_linear with
  | zero => show embL (0 : LP n) p = _; rw [map_zero]; rfl
  | add f g hf hg => rw [emb_add, Pi.add_apply, hf, hg]; rfl
  | single u r =>
    have : (AddMonoidAlgebra.single u r : LP n) = r • mono u := by
      unfold mono; simp
    rw [this, emb_smul, Pi.smul_apply, emb_mono]
    simp [mono, Finsupp.single_apply, eq_comm]

theorem emb_injective : Function.Injective (emb : LP n → Lat n → ℚ) := by
  intro a b h
  ext p
  rw [← emb_coeff, ← emb_coeff, h]

/-! ## Negligible functions -/

/-- **Specification.** `f` does not change under some non-zero lattice translation. -/
def Periodic (f : Lat n → ℚ) : Prop := ∃ l : Lat n, l ≠ 0 ∧ ∀ p, f (p + l) = f p

/-- **Specification.** Linear combinations of functions each invariant under some non-zero lattice
translation: such as indicators of polyhedra containing a rational line. -/
def negligible (n : ℕ) : Submodule ℚ (Lat n → ℚ) := Submodule.span ℚ {f | Periodic f}

theorem one_sub_mono_ne (l : Lat n) (hl : l ≠ 0) : (1 - mono l : LP n) ≠ 0 := by
  intro h
  have := congrFun (congrArg emb h) l
  rw [show (0 : LP n) = 0 from rfl] at this
  have h1 : emb (1 - mono l : LP n) l = emb (1 : LP n) l - emb (mono l) l := by
    have := map_sub embL (1 : LP n) (mono l)
    exact congrFun this l
  rw [h1, ← mono_zero, emb_mono, emb_mono, if_neg hl, if_pos rfl] at this
  have h2 : emb (0 : LP n) l = 0 := congrFun (map_zero (embL (n := n))) l
  rw [h2] at this
  norm_num at this

theorem negligible_killed {g : Lat n → ℚ} (hg : g ∈ negligible n) :
    ∃ L : LP n, L ≠ 0 ∧ act L g = 0 := by
  induction hg using Submodule.span_induction with
  | mem f hf =>
    obtain ⟨l, hl, h⟩ := hf
    refine ⟨1 - mono l, one_sub_mono_ne l hl, ?_⟩
    funext p
    rw [map_sub, map_one]
    show f p - act (mono l) f p = 0
    rw [act_mono, ← h (p - l), sub_add_cancel, sub_self]
  | zero => exact ⟨1, one_ne_zero, map_zero _⟩
  | add f g _ _ hf hg =>
    obtain ⟨L, hL, h1⟩ := hf
    obtain ⟨M, hM, h2⟩ := hg
    refine ⟨L * M, mul_ne_zero hL hM, ?_⟩
    have e1 : act (L * M) f = 0 := by
      rw [mul_comm, map_mul]
      show act M (act L f) = 0
      rw [h1, map_zero]
    have e2 : act (L * M) g = 0 := by
      rw [map_mul]
      show act L (act M g) = 0
      rw [h2, map_zero]
    rw [map_add, e1, e2, add_zero]
  | smul c f _ hf =>
    obtain ⟨L, hL, h1⟩ := hf
    exact ⟨L, hL, by rw [map_smul, h1, smul_zero]⟩

/-! ## From indicator identities to rational functions -/

/-- If `∑ εᵢ Kᵢ = s` up to a negligible function, where `Dᵢ · Kᵢ = Nᵢ`, then
`s = ∑ εᵢ Nᵢ/Dᵢ` with denominators cleared. -/
theorem cleared {ι : Type*} [Fintype ι] [DecidableEq ι] (eps : ι → ℚ) (D N : ι → LP n)
    (K : ι → Lat n → ℚ) (hK : ∀ i, act (D i) (K i) = emb (N i)) (s : LP n) (g : Lat n → ℚ)
    (hg : g ∈ negligible n) (h : ∑ i, eps i • K i = emb s + g) :
    (∏ i, D i) * s = ∑ i, eps i • ((∏ j ∈ Finset.univ.erase i, D j) * N i) := by
  obtain ⟨L, hL, hLg⟩ := negligible_killed hg
  apply mul_left_cancel₀ hL
  apply emb_injective
  have h1 := congrArg (act (L * ∏ i, D i)) h
  rw [map_add, act_emb] at h1
  have h2 : act (L * ∏ i, D i) g = 0 := by
    rw [mul_comm, map_mul]
    show act _ (act L g) = 0
    rw [hLg, map_zero]
  rw [h2, add_zero] at h1
  rw [← mul_assoc, ← h1, map_sum]
  have h3 : ∀ i, act (L * ∏ i, D i) (eps i • K i) =
      embL (L * eps i • ((∏ j ∈ Finset.univ.erase i, D j) * N i)) := by
    intro i
    rw [map_smul, ← Finset.prod_erase_mul _ _ (Finset.mem_univ i), ← mul_assoc, map_mul]
    show eps i • act (L * _) (act (D i) (K i)) = emb _
    rw [hK, act_emb, mul_smul_comm, emb_smul, mul_assoc]
  simp only [h3]
  rw [← map_sum, ← Finset.mul_sum]
  rfl

/-! ## The exponential substitution -/

/-- Scalar product of integer vectors. -/
def ip (lam u : Lat n) : ℤ := ∑ k, lam k * u k

theorem ip_add (lam u v : Lat n) : ip lam (u + v) = ip lam u + ip lam v := by
  unfold ip
  rw [← Finset.sum_add_distrib]
  exact Finset.sum_congr rfl fun k _ => by rw [Pi.add_apply]; ring

/-- `x^u ↦ exp(⟨λ,u⟩ t)`. -/
noncomputable def expHom (lam : Lat n) : Multiplicative (Lat n) →* PowerSeries ℚ where
  toFun u := rescale ((ip lam u.toAdd : ℤ) : ℚ) (exp ℚ)
  map_one' := by
    have : ip lam (Multiplicative.toAdd 1) = 0 := by
      unfold ip
      exact Finset.sum_eq_zero fun k _ => by
        show lam k * (0 : Lat n) k = 0
        simp
    rw [this]
    ext i
    rw [coeff_rescale, coeff_exp, coeff_one]
    by_cases hi : i = 0
    · subst hi; simp
    · simp [hi]
  map_mul' u v := by
    rw [toAdd_mul, ip_add, exp_mul_exp_eq_exp_add]
    push_cast
    rfl

/-- The exponential substitution on Laurent polynomials. -/
noncomputable def phi (lam : Lat n) : LP n →ₐ[ℚ] PowerSeries ℚ :=
  AddMonoidAlgebra.lift ℚ (PowerSeries ℚ) (Lat n) (expHom lam)

theorem phi_mono (lam u : Lat n) : phi lam (mono u) = rescale ((ip lam u : ℤ) : ℚ) (exp ℚ) := by
  unfold phi mono
  rw [AddMonoidAlgebra.lift_single, one_smul]
  rfl

/-- The generating function of a list of lattice points. -/
noncomputable def gf (S : List (Lat n)) : LP n := (S.map mono).sum

theorem emb_gf (S : List (Lat n)) (hS : S.Nodup) (p : Lat n) :
    emb (gf S) p = if p ∈ S then 1 else 0 := by
  unfold gf
  induction S with
  | nil =>
    have h2 : emb (0 : LP n) p = 0 := congrFun (map_zero (embL (n := n))) p
    simpa using h2
  | cons a S ih =>
    rw [List.nodup_cons] at hS
    rw [List.map_cons, List.sum_cons, emb_add, Pi.add_apply, emb_mono, ih hS.2]
    by_cases h : p = a
    · subst h
      rw [if_pos rfl, if_neg hS.1, if_pos (by simp), add_zero]
    · rw [if_neg h, zero_add]
      simp only [List.mem_cons, h, false_or]

theorem phi_gf (lam : Lat n) (S : List (Lat n)) :
    phi lam (gf S) = (S.map fun p => rescale ((ip lam p : ℤ) : ℚ) (exp ℚ)).sum := by
  unfold gf
  rw [map_list_sum, List.map_map]
  congr 1
  exact List.map_congr_left fun p _ => phi_mono lam p

/-- The coefficient of `t^k` is the `k`-th power sum divided by `k!`. -/
theorem coeff_phi_gf (lam : Lat n) (S : List (Lat n)) (k : ℕ) :
    coeff k (phi lam (gf S)) = (S.map fun p => ((ip lam p : ℤ) : ℚ) ^ k).sum / (k.factorial : ℚ) := by
  rw [phi_gf]
  induction S with
  | nil => simp
  | cons a S ih =>
    rw [List.map_cons, List.map_cons, List.sum_cons, List.sum_cons, map_add, ih, coeff_rescale,
      coeff_exp]
    simp only [eq_ratCast, Rat.cast_id]
    ring

/-- The exponential substitution applied to the cleared identity. -/
theorem substituted {ι : Type*} [Fintype ι] [DecidableEq ι] (lam : Lat n) (eps : ι → ℚ)
    (D N : ι → LP n) (s : LP n)
    (h : (∏ i, D i) * s = ∑ i, eps i • ((∏ j ∈ Finset.univ.erase i, D j) * N i)) (d : ℕ)
    (Q : ι → PowerSeries ℚ) (hQ : ∀ i, phi lam (D i) * Q i = X ^ d) :
    X ^ d * phi lam s = ∑ i, eps i • (phi lam (N i) * Q i) := by
  have hD : ∀ i, phi lam (D i) ≠ 0 := by
    intro i h0
    have := hQ i
    rw [h0, zero_mul] at this
    exact pow_ne_zero d X_ne_zero this.symm
  have hP : ∏ i, phi lam (D i) ≠ 0 := Finset.prod_ne_zero_iff.mpr fun i _ => hD i
  apply mul_left_cancel₀ hP
  have h1 := congrArg (phi lam) h
  rw [map_mul, map_prod, map_sum] at h1
  calc (∏ i, phi lam (D i)) * (X ^ d * phi lam s) = X ^ d * ((∏ i, phi lam (D i)) * phi lam s) := by
        ring
    _ = X ^ d * ∑ i, phi lam (eps i • ((∏ j ∈ Finset.univ.erase i, D j) * N i)) := by rw [h1]
    _ = ∑ i, (∏ i, phi lam (D i)) * (eps i • (phi lam (N i) * Q i)) := by
        rw [Finset.mul_sum]
        refine Finset.sum_congr rfl fun i _ => ?_
        rw [map_smul, map_mul, map_prod, ← hQ i,
          ← Finset.prod_erase_mul _ _ (Finset.mem_univ i), mul_smul_comm, mul_smul_comm]
        congr 1
        ring
    _ = _ := by rw [← Finset.mul_sum]

/-- **Counting.** The constant coefficient. -/
theorem counting {ι : Type*} [Fintype ι] [DecidableEq ι] (lam : Lat n) (eps : ι → ℚ)
    (D : ι → LP n) (pts : ι → List (Lat n)) (K : ι → Lat n → ℚ)
    (hK : ∀ i, act (D i) (K i) = emb (gf (pts i))) (S : List (Lat n)) (hS : S.Nodup)
    (g : Lat n → ℚ) (hg : g ∈ negligible n)
    (h : ∀ p, ∑ i, eps i * K i p = (if p ∈ S then 1 else 0) + g p) (d : ℕ)
    (Q : ι → PowerSeries ℚ) (hQ : ∀ i, phi lam (D i) * Q i = X ^ d) :
    (S.length : ℚ) = ∑ i, eps i * coeff d (phi lam (gf (pts i)) * Q i) := by
  have h1 := cleared eps D (fun i => gf (pts i)) K hK (gf S) g hg (by
    funext p
    rw [Finset.sum_apply, Pi.add_apply, emb_gf S hS, ← h p]
    rfl)
  have h2 := congrArg (coeff d) (substituted lam eps D _ _ h1 d Q hQ)
  rw [coeff_X_pow_mul', if_pos le_rfl, Nat.sub_self, coeff_phi_gf, map_sum] at h2
  simp only [pow_zero, List.map_const', List.sum_replicate, Nat.factorial_zero, Nat.cast_one,
    div_one, nsmul_eq_mul, mul_one, map_smul, smul_eq_mul] at h2
  exact h2

/-! ## Simplicial cones -/

/-- A cone described by coordinate functions `α j`, such that translation by the ray `r i` lowers
the `i`-th coordinate by one and leaves the others and the side condition `E` unchanged: the product
of the `1 - x^{r i}` applied to the indicator of `{α ≥ 0} ∩ E` is the indicator of
`{0 ≤ α < 1} ∩ E`. -/
theorem act_prod_cone {ι : Type*} [Fintype ι] [DecidableEq ι] (r : ι → Lat n)
    (α : ι → Lat n → ℚ) (E : Lat n → Prop) (hE : ∀ i p, E (p - r i) ↔ E p)
    (hα : ∀ i j p, α j (p - r i) = α j p - if i = j then 1 else 0)
    (K : Lat n → ℚ) (hK1 : ∀ p, (E p ∧ ∀ j, 0 ≤ α j p) → K p = 1)
    (hK0 : ∀ p, ¬ (E p ∧ ∀ j, 0 ≤ α j p) → K p = 0) (p : Lat n) :
    ((E p ∧ ∀ j, 0 ≤ α j p ∧ α j p < 1) → act (∏ i, (1 - mono (r i))) K p = 1) ∧
    (¬ (E p ∧ ∀ j, 0 ≤ α j p ∧ α j p < 1) → act (∏ i, (1 - mono (r i))) K p = 0) := by
  classical
  have key : ∀ I : Finset ι, ∀ p, act (∏ i ∈ I, (1 - mono (r i))) K p =
      if E p ∧ (∀ j, 0 ≤ α j p) ∧ (∀ j ∈ I, α j p < 1) then 1 else 0 := by
    intro I
    induction I using Finset.induction_on with
    | empty =>
      intro p
      rw [Finset.prod_empty, map_one]
      show K p = _
      by_cases h : E p ∧ ∀ j, 0 ≤ α j p
      · rw [hK1 p h, if_pos ⟨h.1, h.2, by simp⟩]
      · rw [hK0 p h, if_neg]
        rintro ⟨h1, h2, -⟩
        exact h ⟨h1, h2⟩
    | insert i I hi ih =>
      intro p
      rw [Finset.prod_insert hi, map_mul]
      show act (1 - mono (r i)) (act (∏ i ∈ I, (1 - mono (r i))) K) p = _
      rw [map_sub, map_one]
      show act (∏ i ∈ I, (1 - mono (r i))) K p - act (mono (r i)) _ p = _
      rw [act_mono, ih, ih]
      by_cases h1 : E p ∧ (∀ j, 0 ≤ α j p) ∧ (∀ j ∈ I, α j p < 1)
      · rw [if_pos h1]
        by_cases h2 : α i p < 1
        · rw [if_neg, if_pos, sub_zero]
          · refine ⟨h1.1, h1.2.1, fun j hj => ?_⟩
            rcases Finset.mem_insert.mp hj with rfl | hj
            · exact h2
            · exact h1.2.2 j hj
          · rintro ⟨-, h3, -⟩
            have := h3 i
            rw [hα, if_pos rfl] at this
            linarith
        · rw [if_pos, if_neg, sub_self]
          · rintro ⟨-, -, h3⟩
            exact h2 (h3 i (Finset.mem_insert_self _ _))
          · refine ⟨(hE i p).mpr h1.1, fun j => ?_, fun j hj => ?_⟩
            · rw [hα]
              by_cases hij : i = j
              · subst hij; rw [if_pos rfl]; linarith [not_lt.mp h2]
              · rw [if_neg hij, sub_zero]; exact h1.2.1 j
            · rw [hα, if_neg (by rintro rfl; exact hi hj), sub_zero]
              exact h1.2.2 j hj
      · rw [if_neg h1, if_neg, if_neg, sub_zero]
        · rintro ⟨h3, h4, h5⟩
          exact h1 ⟨h3, h4, fun j hj => h5 j (Finset.mem_insert_of_mem hj)⟩
        · rintro ⟨h3, h4, h5⟩
          refine h1 ⟨(hE i p).mp h3, fun j => ?_, fun j hj => ?_⟩
          · have := h4 j
            rw [hα] at this
            split at this <;> linarith
          · have := h5 j hj
            rw [hα, if_neg (by rintro rfl; exact hi hj), sub_zero] at this
            exact this
  rw [key]
  constructor
  · rintro ⟨h1, h2⟩
    rw [if_pos ⟨h1, fun j => (h2 j).1, fun j _ => (h2 j).2⟩]
  · intro h
    rw [if_neg]
    rintro ⟨h1, h2, h3⟩
    exact h ⟨h1, fun j => ⟨h2 j, h3 j (Finset.mem_univ j)⟩⟩

end Verif.ExpSubst
