import Verif.Digging.Start
import Verif.PolySubst.Count
import Mathlib.Data.Int.LeastGreatest
import Mathlib.Data.Set.Finite.Lattice

/-!
# Expanding rational generating functions along a decreasing direction

Mathematical part: if cones add up to an indicator up to functions that are periodic, then their expansions along directions of decreasing cost add up to the
indicator exactly.
-/

namespace Verif.Digging

open Verif.Barvinok (Vec)
open Verif.ExpSubst
open Verif.PolySubst (den')

variable {n : ℕ}

theorem act_apply (L : LP n) (f : Lat n → ℚ) (p : Lat n) : act L f p = L.coeff.sum fun u c => c * f (p - u) := by
  induction L using AddMonoidAlgebra.induction_linear with
  | zero => rw [map_zero]; exact (Finsupp.sum_zero_index (h := fun u c => c * f (p - u))).symm
  | add a b ha hb =>
    rw [map_add]
    show act a f p + act b f p = _
    rw [ha, hb]
    exact (Finsupp.sum_add_index' (h := fun u c => c * f (p - u)) (fun u => zero_mul _) (fun u c d => add_mul _ _ _)).symm
  | single u r =>
    have : (AddMonoidAlgebra.single u r : LP n) = r • mono u := by
      unfold mono; simp
    rw [this, map_smul]
    show r * act (mono u) f p = _
    rw [act_mono]
    have h2 : (r • mono u : LP n).coeff = Finsupp.single u r := by rw [← this]; rfl
    rw [h2, Finsupp.sum_single_index (zero_mul _)]

/-- Cost is bounded above on the support and there are finitely many points of the support of each cost. -/
structure Descending (cost : Lat n) (f : Lat n → ℚ) : Prop where
  bounded : ∃ B : ℤ, ∀ p, f p ≠ 0 → inner cost p ≤ B
  finite : ∀ t : ℤ, {p | f p ≠ 0 ∧ inner cost p = t}.Finite

theorem Descending.add {cost : Lat n} {f g : Lat n → ℚ} (hf : Descending cost f) (hg : Descending cost g) : Descending cost (f + g) := by
  obtain ⟨B, hB⟩ := hf.bounded
  obtain ⟨C, hC⟩ := hg.bounded
  have key : ∀ p, (f + g) p ≠ 0 → f p ≠ 0 ∨ g p ≠ 0 := by
    intro p hp
    by_contra hcon
    push Not at hcon
    apply hp
    rw [Pi.add_apply, hcon.1, hcon.2, add_zero]
  refine ⟨⟨max B C, fun p hp => ?_⟩, fun t => ?_⟩
  · rcases key p hp with h | h
    · exact (hB p h).trans (le_max_left _ _)
    · exact (hC p h).trans (le_max_right _ _)
  · refine ((hf.finite t).union (hg.finite t)).subset ?_
    rintro p ⟨h1, h2⟩
    rcases key p h1 with h | h
    · exact Or.inl ⟨h, h2⟩
    · exact Or.inr ⟨h, h2⟩

theorem Descending.smul {cost : Lat n} {f : Lat n → ℚ} (hf : Descending cost f) (a : ℚ) : Descending cost (a • f) := by
  obtain ⟨B, hB⟩ := hf.bounded
  have key : ∀ p, (a • f) p ≠ 0 → f p ≠ 0 := by
    intro p hp h
    apply hp
    rw [Pi.smul_apply, h, smul_zero]
  exact ⟨⟨B, fun p hp => hB p (key p hp)⟩, fun t => (hf.finite t).subset fun p hp => ⟨key p hp.1, hp.2⟩⟩

theorem Descending.zero (cost : Lat n) : Descending cost (0 : Lat n → ℚ) :=
  ⟨⟨0, fun _ hp => absurd rfl hp⟩, fun _ => Set.finite_empty.subset fun _ hp => absurd rfl hp.1⟩

theorem Descending.list_sum {cost : Lat n} {β : Type*} (F : β → Lat n → ℚ) (l : List β) (h : ∀ b ∈ l, Descending cost (F b)) :
    Descending cost (l.map F).sum := by
  induction l with
  | nil => exact Descending.zero cost
  | cons b l ih =>
    rw [List.map_cons, List.sum_cons]
    exact (h b List.mem_cons_self).add (ih fun b' hb' => h b' (List.mem_cons_of_mem _ hb'))

/-- **No torsion.** A descending function killed by a non-zero Laurent polynomial is zero. -/
theorem killed_zero {cost : Lat n} {f : Lat n → ℚ} (hf : Descending cost f) {L : LP n} (hL : L ≠ 0) (h : act L f = 0) : f = 0 := by
  by_contra hne
  obtain ⟨p0, hp0⟩ := Function.ne_iff.1 hne
  obtain ⟨B, hB⟩ := hf.bounded
  obtain ⟨m, ⟨q, hq1, hq2⟩, hmax⟩ := Int.exists_greatest_of_bdd (P := fun t => ∃ p, f p ≠ 0 ∧ inner cost p = t)
    ⟨B, by rintro t ⟨p, h1, rfl⟩; exact hB p h1⟩ ⟨_, p0, hp0, rfl⟩
  have hLs : L.coeff.support.Nonempty := by
    rw [Finset.nonempty_iff_ne_empty]
    intro h0
    apply hL
    have : L.coeff = 0 := Finsupp.support_eq_empty.1 h0
    ext u
    rw [this]; rfl
  obtain ⟨v, hv, hvmax⟩ := Finset.exists_max_image L.coeff.support (fun u => inner cost u) hLs
  set M := inner cost v with hM
  -- the leading parts
  set F : LP n := ∑ p ∈ (hf.finite m).toFinset, f p • mono p with hF
  set LM : LP n := ∑ u ∈ L.coeff.support.filter (fun u => inner cost u = M), L.coeff u • mono u with hLM
  have embF : ∀ p, emb F p = if inner cost p = m then f p else 0 := by
    intro p
    have h1 : emb F = ∑ p' ∈ (hf.finite m).toFinset, f p' • emb (mono p') := by
      show embL F = _
      rw [hF, map_sum]
      exact Finset.sum_congr rfl fun p' _ => by rw [map_smul]; rfl
    rw [h1, Finset.sum_apply]
    by_cases hp : f p ≠ 0 ∧ inner cost p = m
    · rw [if_pos hp.2, Finset.sum_eq_single p]
      · rw [Pi.smul_apply, emb_mono, if_pos rfl, smul_eq_mul, mul_one]
      · intro b _ hb
        rw [Pi.smul_apply, emb_mono, if_neg (Ne.symm hb), smul_zero]
      · intro hcon
        exact absurd ((hf.finite m).mem_toFinset.2 hp) hcon
    · rw [Finset.sum_eq_zero]
      · by_cases h2 : inner cost p = m
        · rw [if_pos h2]
          by_contra h3
          exact hp ⟨Ne.symm h3, h2⟩
        · rw [if_neg h2]
      · intro b hb
        rw [Pi.smul_apply, emb_mono]
        by_cases h3 : p = b
        · subst h3
          exact absurd ((hf.finite m).mem_toFinset.1 hb) hp
        · rw [if_neg h3, smul_zero]
  have coeffLM : ∀ u, LM.coeff u = if inner cost u = M then L.coeff u else 0 := by
    intro u
    rw [← emb_coeff]
    have h1 : emb LM = ∑ u ∈ L.coeff.support.filter (fun u => inner cost u = M), L.coeff u • emb (mono u) := by
      show embL LM = _
      rw [hLM, map_sum]
      exact Finset.sum_congr rfl fun p' _ => by rw [map_smul]; rfl
    rw [h1, Finset.sum_apply]
    by_cases hp : L.coeff u ≠ 0 ∧ inner cost u = M
    · rw [if_pos hp.2, Finset.sum_eq_single u]
      · rw [Pi.smul_apply, emb_mono, if_pos rfl, smul_eq_mul, mul_one]
      · intro b _ hb
        rw [Pi.smul_apply, emb_mono, if_neg (Ne.symm hb), smul_zero]
      · intro hcon
        exact absurd (Finset.mem_filter.2 ⟨Finsupp.mem_support_iff.2 hp.1, hp.2⟩) hcon
    · rw [Finset.sum_eq_zero]
      · by_cases h2 : inner cost u = M
        · rw [if_pos h2]
          by_contra h3
          exact hp ⟨Ne.symm h3, h2⟩
        · rw [if_neg h2]
      · intro b hb
        rw [Pi.smul_apply, emb_mono]
        by_cases h3 : u = b
        · subst h3
          have := Finset.mem_filter.1 hb
          exact absurd ⟨Finsupp.mem_support_iff.1 this.1, this.2⟩ hp
        · rw [if_neg h3, smul_zero]
  have hFne : F ≠ 0 := by
    intro h0
    have := embF q
    rw [h0, if_pos hq2] at this
    exact hq1 (this.symm.trans (congrFun (map_zero (embL (n := n))) q))
  have hLMne : LM ≠ 0 := by
    intro h0
    have := coeffLM v
    rw [h0, if_pos hM.symm] at this
    exact (Finsupp.mem_support_iff.1 hv) this.symm
  have hprod : LM * F ≠ 0 := mul_ne_zero hLMne hFne
  apply hprod
  apply emb_injective
  rw [← act_emb]
  have hz : emb (0 : LP n) = 0 := map_zero (embL (n := n))
  rw [hz]
  funext p
  rw [act_apply]
  show _ = (0 : ℚ)
  have hinner : ∀ u, inner cost (p - u) = inner cost p - inner cost u := fun u => inner_sub cost p u
  by_cases hp : inner cost p = m + M
  · have h1 : act L f p = 0 := by rw [h]; rfl
    rw [act_apply] at h1
    rw [← h1]
    unfold Finsupp.sum
    have hsub : LM.coeff.support ⊆ L.coeff.support := by
      intro u hu
      rw [Finsupp.mem_support_iff, coeffLM] at hu
      rw [Finsupp.mem_support_iff]
      intro h0
      apply hu
      rw [h0, ite_self]
    rw [Finset.sum_subset hsub (fun u _ hu => by beta_reduce; rw [Finsupp.notMem_support_iff.1 hu, zero_mul])]
    refine Finset.sum_congr rfl fun u hu => ?_
    beta_reduce
    rw [coeffLM, embF, hinner]
    by_cases hu1 : inner cost u = M
    · rw [if_pos hu1, if_pos (by omega)]
    · rw [if_neg hu1, zero_mul]
      have hlt : inner cost u < M := lt_of_le_of_ne (hvmax u hu) hu1
      have : f (p - u) = 0 := by
        by_contra h3
        have := hmax _ ⟨p - u, h3, rfl⟩
        rw [hinner] at this
        omega
      rw [this, mul_zero]
  · unfold Finsupp.sum
    refine Finset.sum_eq_zero fun u hu => ?_
    beta_reduce
    rw [coeffLM, embF, hinner]
    by_cases hu1 : inner cost u = M
    · rw [if_pos hu1, if_neg (by omega), mul_zero]
    · rw [if_neg hu1, zero_mul]

/-! ## Simplicial cones -/

/-- The exponent vectors for a point. -/
def fiber (fs : List (Vec n)) (z : Vec n) : Set (List ℕ) := {e | e.length = fs.length ∧ lincomb e fs = z}

/-- In how many ways is `z` a combination of the generators? -/
noncomputable def mult (fs : List (Vec n)) (z : Vec n) : ℚ := ((fiber fs z).ncard : ℚ)

theorem fiber_subset {cost : Vec n} (fs : List (Vec n)) (z : Vec n) : fiber fs z ⊆ level (fs.map (inner cost)) (inner cost z) := by
  rintro e ⟨h1, rfl⟩
  exact ⟨by simpa using h1, (inner_lincomb cost e fs).symm⟩

theorem fiber_finite {cost : Vec n} {fs : List (Vec n)} (h : ∀ f ∈ fs, inner cost f < 0) (z : Vec n) : (fiber fs z).Finite := by
  refine Set.Finite.subset (level_finite (s := fs.map (inner cost)) ?_ _) (fiber_subset fs z)
  intro y hy
  obtain ⟨f, hf, rfl⟩ := List.mem_map.1 hy
  exact h f hf

theorem mult_nil (z : Vec n) : mult [] z = if z = 0 then 1 else 0 := by
  unfold mult
  by_cases h : z = 0
  · rw [if_pos h]
    have : fiber ([] : List (Vec n)) z = {[]} := by
      ext e
      constructor
      · rintro ⟨h1, -⟩
        exact List.length_eq_zero_iff.1 h1
      · rintro rfl
        exact ⟨rfl, h.symm⟩
    rw [this, Set.ncard_singleton]; norm_num
  · rw [if_neg h]
    have : fiber ([] : List (Vec n)) z = ∅ := by
      ext e
      refine ⟨?_, fun h => h.elim⟩
      rintro ⟨h1, h2⟩
      rw [List.length_eq_zero_iff.1 h1] at h2
      exact h h2.symm
    rw [this, Set.ncard_empty]; norm_num

theorem mult_cons {cost : Vec n} (f : Vec n) (fs : List (Vec n)) (h : ∀ g ∈ f :: fs, inner cost g < 0) (z : Vec n) :
    mult (f :: fs) z = mult fs z + mult (f :: fs) (z - f) := by
  unfold mult
  have e1 : fiber (f :: fs) z = (fun e => 0 :: e) '' fiber fs z ∪ (fun e : List ℕ => (e.headD 0 + 1) :: e.tail) '' fiber (f :: fs) (z - f) := by
    ext e
    constructor
    · rintro ⟨h1, h2⟩
      cases e with
      | nil => cases h1
      | cons x e =>
        cases x with
        | zero =>
          refine Or.inl ⟨e, ⟨by simpa using h1, ?_⟩, rfl⟩
          rw [← h2]
          show lincomb e fs = ((0 : ℕ) : ℤ) • f + lincomb e fs
          simp
        | succ x =>
          refine Or.inr ⟨x :: e, ⟨by simpa using h1, ?_⟩, rfl⟩
          rw [← h2]
          show (x : ℤ) • f + lincomb e fs = ((x + 1 : ℕ) : ℤ) • f + lincomb e fs - f
          push_cast
          rw [add_smul, one_smul]
          abel
    · rintro (⟨e, ⟨h1, h2⟩, rfl⟩ | ⟨e, ⟨h1, h2⟩, rfl⟩)
      · refine ⟨by simpa using h1, ?_⟩
        rw [← h2]
        show ((0 : ℕ) : ℤ) • f + lincomb e fs = lincomb e fs
        simp
      · cases e with
        | nil => cases h1
        | cons x e =>
          refine ⟨by simpa using h1, ?_⟩
          have h3 : (x : ℤ) • f + lincomb e fs = z - f := h2
          show ((x + 1 : ℕ) : ℤ) • f + lincomb e fs = z
          push_cast
          rw [add_smul, one_smul, add_right_comm, h3]
          abel
  have hfin1 := fiber_finite (fun g hg => h g (List.mem_cons_of_mem _ hg)) (cost := cost) z
  have hfin2 := fiber_finite h (cost := cost) (z - f)
  rw [e1, Set.ncard_union_eq ?_ (hfin1.image _) (hfin2.image _), Set.InjOn.ncard_image, Set.InjOn.ncard_image]
  · push_cast; rfl
  · rintro a ⟨ha, -⟩ b ⟨hb, -⟩ hab
    cases a with
    | nil => cases ha
    | cons x a =>
      cases b with
      | nil => cases hb
      | cons y b =>
        simp only [List.headD_cons, List.tail_cons, List.cons.injEq, add_left_inj] at hab
        rw [hab.1, hab.2]
  · intro a _ b _ hab
    simpa using hab
  · rw [Set.disjoint_left]
    rintro e ⟨a, -, rfl⟩ ⟨b, -, hb⟩
    simp at hb

theorem act_mult {cost : Vec n} (fs : List (Vec n)) (h : ∀ g ∈ fs, inner cost g < 0) : act (den' fs) (mult fs) = emb 1 := by
  induction fs with
  | nil =>
    show act 1 (mult []) = _
    rw [map_one]
    funext z
    show mult [] z = _
    rw [mult_nil, ← mono_zero, emb_mono]
  | cons f fs ih =>
    have e1 : act (1 - mono f) (mult (f :: fs)) = mult fs := by
      funext z
      rw [map_sub, map_one]
      show mult (f :: fs) z - act (mono f) _ z = _
      rw [act_mono, mult_cons f fs h z]
      ring
    have e2 : den' (f :: fs) = den' fs * (1 - mono f) := by
      show (List.map _ (f :: fs)).prod = _
      rw [List.map_cons, List.prod_cons, mul_comm]
      rfl
    rw [e2, map_mul]
    show act (den' fs) (act (1 - mono f) _) = _
    rw [e1, ih fun g hg => h g (List.mem_cons_of_mem _ hg)]

theorem den'_perm {l l' : List (Vec n)} (h : l.Perm l') : den' l = den' l' := (h.map _).prod_eq

theorem den'_ne_zero {l : List (Vec n)} (h : ∀ r ∈ l, r ≠ 0) : den' l ≠ 0 := by
  unfold den'
  rw [Ne, List.prod_eq_zero_iff]
  intro hc
  obtain ⟨r, hr, h0⟩ := List.mem_map.1 hc
  exact one_sub_mono_ne r (h r hr) h0

theorem den'_turn (cost : Vec n) (rays : List (Vec n)) :
    den' rays = ((turnSign cost rays : ℤ) : ℚ) • (mono ((rays.filter fun r => 0 < inner cost r).sum) * den' (rays.map (turn cost))) := by
  induction rays with
  | nil =>
    show (1 : LP n) = _
    unfold turnSign
    simp [den', mono_zero]
  | cons r rays ih =>
    have e2 : ∀ (x : Vec n) l, den' (x :: l) = (1 - mono x) * den' l := fun x l => by
      show (List.map _ (x :: l)).prod = _
      rw [List.map_cons, List.prod_cons]
      rfl
    rw [e2, List.map_cons, e2, ih]
    unfold turnSign turn
    by_cases h : 0 < inner cost r
    · rw [if_pos h, List.filter_cons_of_pos (by simpa using h), List.length_cons, List.sum_cons, mono_add, pow_succ]
      have hm : (1 - mono r : LP n) = (-1 : ℚ) • (mono r * (1 - mono (-r))) := by
        rw [mul_sub, mul_one, ← mono_add, add_neg_cancel, mono_zero, neg_one_smul]
        ring
      rw [hm]
      push_cast
      simp only [smul_mul_assoc, mul_smul_comm, smul_smul]
      congr 1
      ring
    · rw [if_neg h, List.filter_cons_of_neg (by simpa using h)]
      simp only [mul_smul_comm]
      congr 1
      ring

/-- The expansion of the generating function of a cone along decreasing cost. -/
noncomputable def expand (sg : ℤ) (p : Vec n) (fs : List (Vec n)) : Vec n → ℚ := fun z => (sg : ℚ) * mult fs (z - p)

theorem expand_descending {cost : Vec n} (sg : ℤ) (p : Vec n) {fs : List (Vec n)} (h : ∀ f ∈ fs, inner cost f < 0) :
    Descending cost (expand sg p fs) := by
  have hs : ∀ y ∈ fs.map (inner cost), y < 0 := by
    intro y hy
    obtain ⟨f, hf, rfl⟩ := List.mem_map.1 hy
    exact h f hf
  have key : ∀ z, expand sg p fs z ≠ 0 → ∃ e ∈ level (fs.map (inner cost)) (inner cost z - inner cost p), z = p + lincomb e fs := by
    intro z hz
    have h1 : mult fs (z - p) ≠ 0 := fun h0 => hz (by unfold expand; rw [h0, mul_zero])
    have h2 : (fiber fs (z - p)).ncard ≠ 0 := fun h0 => h1 (by unfold mult; rw [h0]; rfl)
    obtain ⟨e, he⟩ := Set.nonempty_of_ncard_ne_zero h2
    refine ⟨e, ?_, ?_⟩
    · rw [← inner_sub]
      exact fiber_subset fs _ he
    · rw [he.2]; abel
  refine ⟨⟨inner cost p, fun z hz => ?_⟩, fun t => ?_⟩
  · obtain ⟨e, ⟨h1, h2⟩, h3⟩ := key z hz
    have := dotL_le hs h1
    have h4 : (0 : ℤ) ≤ (e.sum : ℕ) := Int.natCast_nonneg _
    omega
  · refine ((level_finite hs (t - inner cost p)).image fun e => p + lincomb e fs).subset ?_
    rintro z ⟨h1, rfl⟩
    obtain ⟨e, h2, h3⟩ := key z h1
    exact ⟨e, h2, h3.symm⟩

theorem act_expand {cost : Vec n} (pt : Vec n) (rays fs : List (Vec n)) (hp : fs.Perm (rays.map (turn cost))) (h0 : ∀ r ∈ rays, inner cost r ≠ 0) :
    act (den' rays) (expand (turnSign cost rays) (apex cost pt rays) fs) = emb (gf [pt]) := by
  have hneg : ∀ f ∈ fs, inner cost f < 0 := by
    intro f hf
    obtain ⟨r, hr, rfl⟩ := List.mem_map.1 (hp.mem_iff.1 hf)
    exact turn_neg (h0 r hr)
  have e1 : expand (turnSign cost rays) (apex cost pt rays) fs = ((turnSign cost rays : ℤ) : ℚ) • act (mono (apex cost pt rays)) (mult fs) := by
    funext z
    rw [Pi.smul_apply, act_mono]
    rfl
  have e2 : ((turnSign cost rays : ℤ) : ℚ) * ((turnSign cost rays : ℤ) : ℚ) = 1 := by
    unfold turnSign
    push_cast
    rw [← mul_pow]
    norm_num
  rw [e1, den'_turn cost rays, ← den'_perm hp, map_smul, map_smul, map_mul]
  show (((turnSign cost rays : ℤ) : ℚ) • ((turnSign cost rays : ℤ) : ℚ) • act (mono _) (act (den' fs) (act (mono (apex cost pt rays)) (mult fs)))) = _
  rw [smul_smul, e2, one_smul]
  have e3 : act (den' fs) (act (mono (apex cost pt rays)) (mult fs)) = act (mono (apex cost pt rays)) (act (den' fs) (mult fs)) := by
    have := congrArg act (mul_comm (den' fs) (mono (apex cost pt rays)))
    rw [map_mul, map_mul] at this
    exact LinearMap.congr_fun this (mult fs)
  rw [e3, act_mult fs hneg, act_emb, act_emb, mul_one, ← mono_add]
  have : (rays.filter fun r => 0 < inner cost r).sum + apex cost pt rays = pt := by
    unfold apex; abel
  rw [this]
  unfold gf
  simp

end Verif.Digging
