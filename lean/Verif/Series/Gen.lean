import Verif.ExpSubst.Genfun
import Mathlib.RingTheory.HahnSeries.Multiplication
import Mathlib.RingTheory.HahnSeries.PowerSeries
import Mathlib.Algebra.BigOperators.Finprod
import Mathlib.Data.Int.Interval

/-!
# Generating functions graded by height

Purely mathematical.  Functions on `ℤ^{m+1}` that vanish below some height and are different from zero at finitely many points of every height have a
generating function in `R((t))`, for every homomorphism from `ℤ^m` into the units of `R`.
-/

namespace Verif.Series

open Verif.ExpSubst (Lat LP act mono emb)

variable {m : ℕ}

/-- The point `(x, h)`. -/
def at' (x : Lat m) (h : ℤ) : Lat (m + 1) := Fin.snoc x h

theorem at'_init (z : Lat (m + 1)) : at' (fun k => z k.castSucc) (z (Fin.last m)) = z := by
  funext k
  refine Fin.lastCases ?_ (fun k => ?_) k <;> simp [at']

theorem at'_last (x : Lat m) (h : ℤ) : at' x h (Fin.last m) = h := by simp [at']

theorem at'_cast (x : Lat m) (h : ℤ) (k : Fin m) : at' x h k.castSucc = x k := by simp [at']

/-- Functions with a generating function: zero below some height, and with finite support at every height. -/
def tame (m : ℕ) : Submodule ℚ (Lat (m + 1) → ℚ) where
  carrier := {f | (∃ c : ℤ, ∀ x h, f (at' x h) ≠ 0 → c ≤ h) ∧ ∀ h, {x : Lat m | f (at' x h) ≠ 0}.Finite}
  add_mem' := by
    rintro f g ⟨⟨c, hc⟩, hf⟩ ⟨⟨d, hd⟩, hg⟩
    refine ⟨⟨min c d, fun x h hx => ?_⟩, fun h => ?_⟩
    · by_cases h0 : f (at' x h) = 0
      · have : g (at' x h) ≠ 0 := fun h1 => hx (by rw [Pi.add_apply, h0, h1, add_zero])
        exact (min_le_right _ _).trans (hd x h this)
      · exact (min_le_left _ _).trans (hc x h h0)
    · refine ((hf h).union (hg h)).subset fun x hx => ?_
      by_cases h0 : f (at' x h) = 0
      · right
        intro h1
        exact hx (by rw [Pi.add_apply, h0, h1, add_zero])
      · exact Or.inl h0
  zero_mem' := ⟨⟨0, fun x h hx => absurd rfl hx⟩, fun h => by
    have : {x : Lat m | (0 : Lat (m + 1) → ℚ) (at' x h) ≠ 0} = ∅ := by
      ext x; simp
    rw [this]; exact Set.finite_empty⟩
  smul_mem' := by
    rintro r f ⟨⟨c, hc⟩, hf⟩
    refine ⟨⟨c, fun x h hx => hc x h fun h0 => hx (by rw [Pi.smul_apply, h0, smul_zero])⟩, fun h => (hf h).subset fun x hx h0 => hx ?_⟩
    show r • f (at' x h) = 0
    rw [h0, smul_zero]

theorem at'_sub (x : Lat m) (h : ℤ) (u : Lat (m + 1)) : at' x h - u = at' (x - fun k => u k.castSucc) (h - u (Fin.last m)) := by
  funext k
  refine Fin.lastCases ?_ (fun k => ?_) k <;> simp [at']

theorem tame_shift (u : Lat (m + 1)) (f : Lat (m + 1) → ℚ) (hf : f ∈ tame m) : act (mono u) f ∈ tame m := by
  obtain ⟨⟨c, hc⟩, hfin⟩ := hf
  refine ⟨⟨c + u (Fin.last m), fun x h hx => ?_⟩, fun h => ?_⟩
  · rw [ExpSubst.act_mono, at'_sub] at hx
    have := hc _ _ hx
    omega
  · refine ((hfin (h - u (Fin.last m))).image fun x => x + fun k => u k.castSucc).subset fun x hx => ?_
    refine ⟨x - fun k => u k.castSucc, ?_, by simp⟩
    have hx' : act (mono u) f (at' x h) ≠ 0 := hx
    rw [ExpSubst.act_mono, at'_sub] at hx'
    exact hx'

theorem single_eq (u : Lat (m + 1)) (r : ℚ) : (AddMonoidAlgebra.single u r : LP (m + 1)) = r • mono u := by
  unfold mono; simp

theorem tame_act (p : LP (m + 1)) (f : Lat (m + 1) → ℚ) (hf : f ∈ tame m) : act p f ∈ tame m := by
  induction p using AddMonoidAlgebra.induction_linear with
  | zero => rw [map_zero]; exact Submodule.zero_mem _
  | add p q hp hq => rw [map_add]; exact Submodule.add_mem _ hp hq
  | single u r => rw [single_eq, map_smul]; exact Submodule.smul_mem _ _ (tame_shift u f hf)

theorem tame_delta : (Pi.single 0 1 : Lat (m + 1) → ℚ) ∈ tame m := by
  have key : ∀ (x : Lat m) h, (Pi.single 0 1 : Lat (m + 1) → ℚ) (at' x h) ≠ 0 → x = 0 ∧ h = 0 := by
    intro x h hx
    have : at' x h = 0 := by
      by_contra h0
      exact hx (Pi.single_eq_of_ne h0 _)
    constructor
    · funext k; have := congrFun this k.castSucc; rw [at'_cast] at this; exact this
    · have := congrFun this (Fin.last m); rw [at'_last] at this; exact this
  exact ⟨⟨0, fun x h hx => (key x h hx).2.ge⟩, fun h => (Set.finite_singleton (0 : Lat m)).subset fun x hx => (key x h hx).1⟩

theorem tame_emb (p : LP (m + 1)) : emb p ∈ tame m := tame_act p _ tame_delta

/-! ### The generating function -/

section
variable {R : Type*} [CommRing R] [Algebra ℚ R] (χ : Multiplicative (Lat m) →* R)

/-- What is at height `h`. -/
noncomputable def slice (f : Lat (m + 1) → ℚ) (h : ℤ) : R := ∑ᶠ x : Lat m, f (at' x h) • χ (Multiplicative.ofAdd x)

/-- The generating function `∑_z f(z) χ(x) t^h`, `z = (x, h)`. -/
noncomputable def Psi (f : Lat (m + 1) → ℚ) : HahnSeries ℤ R :=
  open scoped Classical in if h : BddBelow (Function.support (slice χ f)) then HahnSeries.ofSuppBddBelow (slice χ f) h else 0

theorem slice_support (f : Lat (m + 1) → ℚ) (h : ℤ) :
    (Function.support fun x : Lat m => f (at' x h) • χ (Multiplicative.ofAdd x)) ⊆ {x | f (at' x h) ≠ 0} := fun x hx h0 => hx (by
  show f (at' x h) • χ (Multiplicative.ofAdd x) = 0
  rw [h0, zero_smul])

theorem Psi_coeff (f : Lat (m + 1) → ℚ) (hf : f ∈ tame m) (h : ℤ) : (Psi χ f).coeff h = slice χ f h := by
  obtain ⟨⟨c, hc⟩, hfin⟩ := hf
  have hb : BddBelow (Function.support (slice χ f)) := by
    refine ⟨c, fun h hh => ?_⟩
    by_contra hlt
    refine hh ?_
    unfold slice
    have : ∀ x : Lat m, f (at' x h) • χ (Multiplicative.ofAdd x) = 0 := by
      intro x
      by_cases h0 : f (at' x h) = 0
      · rw [h0, zero_smul]
      · exact absurd (hc x h h0) hlt
    rw [finsum_congr this, finsum_zero]
  unfold Psi
  rw [dif_pos hb, HahnSeries.coeff_ofSuppBddBelow]

theorem Psi_add (f g : Lat (m + 1) → ℚ) (hf : f ∈ tame m) (hg : g ∈ tame m) : Psi χ (f + g) = Psi χ f + Psi χ g := by
  ext h
  rw [HahnSeries.coeff_add, Psi_coeff χ f hf, Psi_coeff χ g hg, Psi_coeff χ _ (Submodule.add_mem _ hf hg)]
  unfold slice
  rw [← finsum_add_distrib ((hf.2 h).subset (slice_support χ f h)) ((hg.2 h).subset (slice_support χ g h))]
  exact finsum_congr fun x => add_smul _ _ _

theorem Psi_smul (r : ℚ) (f : Lat (m + 1) → ℚ) (hf : f ∈ tame m) : Psi χ (r • f) = HahnSeries.C (algebraMap ℚ R r) * Psi χ f := by
  ext h
  rw [HahnSeries.C_apply, HahnSeries.coeff_single_zero_mul, Psi_coeff χ f hf, Psi_coeff χ _ (Submodule.smul_mem _ _ hf)]
  unfold slice
  rw [mul_finsum' _ _ ((hf.2 h).subset (slice_support χ f h))]
  refine finsum_congr fun x => ?_
  rw [Pi.smul_apply, smul_eq_mul, Algebra.smul_def, Algebra.smul_def, map_mul, mul_assoc]

theorem Psi_zero : Psi χ 0 = 0 := by
  ext h
  rw [Psi_coeff χ 0 (Submodule.zero_mem _)]
  unfold slice
  simp

/-- The value of a monomial. -/
noncomputable def monVal (u : Lat (m + 1)) : HahnSeries ℤ R := HahnSeries.single (u (Fin.last m)) (χ (Multiplicative.ofAdd fun k => u k.castSucc))

theorem Psi_shift (u : Lat (m + 1)) (f : Lat (m + 1) → ℚ) (hf : f ∈ tame m) : Psi χ (act (mono u) f) = monVal χ u * Psi χ f := by
  ext h
  rw [monVal, HahnSeries.coeff_single_mul, Psi_coeff χ f hf, Psi_coeff χ _ (tame_shift u f hf)]
  unfold slice
  rw [mul_finsum' _ _ ((hf.2 _).subset (slice_support χ f _))]
  refine (finsum_comp_equiv (Equiv.subRight (fun k => u k.castSucc : Lat m))).symm.trans ?_ |>.symm
  refine finsum_congr fun x => ?_
  rw [ExpSubst.act_mono, at'_sub, mul_smul_comm, ← map_mul, ← ofAdd_add]
  simp

theorem Psi_delta : Psi χ (Pi.single 0 1) = 1 := by
  ext h
  rw [Psi_coeff χ _ tame_delta, HahnSeries.coeff_one]
  unfold slice
  have h0 : ∀ x : Lat m, at' x h = 0 ↔ x = 0 ∧ h = 0 := by
    intro x
    constructor
    · intro h1
      exact ⟨by funext k; have := congrFun h1 k.castSucc; rw [at'_cast] at this; exact this,
        by have := congrFun h1 (Fin.last m); rw [at'_last] at this; exact this⟩
    · rintro ⟨rfl, rfl⟩
      funext k
      refine Fin.lastCases ?_ (fun k => ?_) k <;> simp [at']
  by_cases hh : h = 0
  · rw [if_pos hh, finsum_eq_single _ (0 : Lat m)]
    · rw [(h0 0).2 ⟨rfl, hh⟩, Pi.single_eq_same, one_smul]
      exact map_one χ
    · intro x hx
      rw [Pi.single_eq_of_ne (fun h1 => hx ((h0 x).1 h1).1), zero_smul]
  · rw [if_neg hh]
    have : ∀ x : Lat m, (Pi.single 0 1 : Lat (m + 1) → ℚ) (at' x h) • χ (Multiplicative.ofAdd x) = 0 := by
      intro x
      rw [Pi.single_eq_of_ne (fun h1 => hh ((h0 x).1 h1).2), zero_smul]
    rw [finsum_congr this, finsum_zero]

/-- The value of a Laurent polynomial. -/
noncomputable def val (p : LP (m + 1)) : HahnSeries ℤ R := Psi χ (emb p)

theorem val_mono (u : Lat (m + 1)) : val χ (mono u) = monVal χ u := by
  unfold val emb
  rw [Psi_shift χ u _ tame_delta, Psi_delta, mul_one]

theorem Psi_act (p : LP (m + 1)) (f : Lat (m + 1) → ℚ) (hf : f ∈ tame m) : Psi χ (act p f) = val χ p * Psi χ f := by
  unfold val emb
  induction p using AddMonoidAlgebra.induction_linear with
  | zero => rw [map_zero]; show Psi χ 0 = Psi χ 0 * _; rw [Psi_zero, zero_mul]
  | add p q hp hq =>
    rw [map_add]
    show Psi χ (act p f + act q f) = Psi χ (act p _ + act q _) * _
    rw [Psi_add χ _ _ (tame_act p f hf) (tame_act q f hf), Psi_add χ _ _ (tame_act p _ tame_delta) (tame_act q _ tame_delta), hp, hq, add_mul]
  | single u r =>
    rw [single_eq, map_smul]
    show Psi χ (r • act (mono u) f) = Psi χ (r • act (mono u) _) * _
    rw [Psi_smul χ r _ (tame_shift u f hf), Psi_smul χ r _ (tame_act (mono u) _ tame_delta), Psi_shift χ u f hf]
    have := val_mono χ u
    unfold val emb at this
    rw [this, mul_assoc]

theorem val_one : val χ (1 : LP (m + 1)) = 1 := by
  unfold val emb
  rw [map_one]
  exact Psi_delta χ

theorem val_mul (p q : LP (m + 1)) : val χ (p * q) = val χ p * val χ q := by
  unfold val
  rw [← ExpSubst.act_emb, Psi_act χ p _ (tame_emb q)]
  rfl

theorem val_sub (p q : LP (m + 1)) : val χ (p - q) = val χ p - val χ q := by
  have h : p - q + q = p := sub_add_cancel p q
  have h2 : val χ (p - q + q) = val χ (p - q) + val χ q := by
    unfold val
    rw [ExpSubst.emb_add, Psi_add χ _ _ (tame_emb _) (tame_emb _)]
  rw [h] at h2
  rw [h2, add_sub_cancel_right]

end

/-! ### Cancellation -/

/-- The universal value: every point stands for itself. -/
noncomputable def generic (m : ℕ) : Multiplicative (Lat m) →* LP m where
  toFun u := mono u.toAdd
  map_one' := ExpSubst.mono_zero
  map_mul' u v := ExpSubst.mono_add u.toAdd v.toAdd

theorem slice_generic (f : Lat (m + 1) → ℚ) (hf : f ∈ tame m) (h : ℤ) (x : Lat m) : emb (slice (generic m) f h) x = f (at' x h) := by
  unfold slice
  rw [finsum_eq_sum_of_support_subset (s := (hf.2 h).toFinset) _ (by
    rw [Set.Finite.coe_toFinset]; exact slice_support (generic m) f h)]
  show ExpSubst.embL (∑ i ∈ _, _) x = _
  rw [map_sum, Finset.sum_apply, Finset.sum_eq_single x]
  · rw [map_smul, Pi.smul_apply]
    show _ • emb (mono x) x = _
    rw [ExpSubst.emb_mono, if_pos rfl, smul_eq_mul, mul_one]
  · intro y _ hy
    rw [map_smul, Pi.smul_apply]
    show _ • emb (mono y) x = _
    rw [ExpSubst.emb_mono, if_neg hy.symm, smul_zero]
  · intro hx
    have : f (at' x h) = 0 := by
      by_contra h0
      exact hx ((Set.Finite.mem_toFinset _).2 h0)
    rw [this, zero_smul, map_zero]
    rfl

theorem Psi_generic_injective (f : Lat (m + 1) → ℚ) (hf : f ∈ tame m) (h0 : Psi (generic m) f = 0) : f = 0 := by
  funext z
  rw [← at'_init z, ← slice_generic f hf, ← Psi_coeff _ f hf, h0, HahnSeries.coeff_zero]
  show ExpSubst.embL (0 : LP m) _ = _
  rw [map_zero]
  rfl

/-- **Cancellation.** A nonzero Laurent polynomial annihilates no function with a generating function except zero. -/
theorem tame_cancel (p : LP (m + 1)) (hp : p ≠ 0) (f : Lat (m + 1) → ℚ) (hf : f ∈ tame m) (h : act p f = 0) : f = 0 := by
  apply Psi_generic_injective f hf
  have h1 := Psi_act (generic m) p f hf
  rw [h, Psi_zero] at h1
  rcases mul_eq_zero.1 h1.symm with h2 | h2
  · exfalso
    have := Psi_generic_injective (emb p) (tame_emb p) h2
    exact hp (ExpSubst.emb_injective (this.trans (map_zero (ExpSubst.embL (n := m + 1))).symm))
  · exact h2

end Verif.Series
