import Verif.Ti2.Spec
import Mathlib.LinearAlgebra.Basis.VectorSpace

/-!
# Extreme rays generate the cone, and the contract of the ray algorithm can be met
-/

namespace Verif.Ti2

open scoped Classical

variable {R L : ℕ} {M : Fin R → Fin L → ℤ} {rs : Fin L → Bool}

theorem add_mem {x y : Fin L → ℝ} (hx : x ∈ ConeOf M rs) (hy : y ∈ ConeOf M rs) : x + y ∈ ConeOf M rs := by
  refine ⟨fun i => ?_, fun j hj => add_nonneg (hx.2 j hj) (hy.2 j hj)⟩
  have : ∑ j, (M i j : ℝ) * (x + y) j = ∑ j, (M i j : ℝ) * x j + ∑ j, (M i j : ℝ) * y j := by
    rw [← Finset.sum_add_distrib]
    exact Finset.sum_congr rfl fun j _ => by rw [Pi.add_apply]; ring
  rw [this, hx.1 i, hy.1 i, add_zero]

theorem sum_smul (c : ℝ) (x : Fin L → ℝ) (i : Fin R) : ∑ j, (M i j : ℝ) * (c • x) j = c * ∑ j, (M i j : ℝ) * x j := by
  rw [Finset.mul_sum]
  exact Finset.sum_congr rfl fun j _ => by rw [Pi.smul_apply, smul_eq_mul]; ring

theorem smul_mem {c : ℝ} (hc : 0 ≤ c) {x : Fin L → ℝ} (hx : x ∈ ConeOf M rs) : c • x ∈ ConeOf M rs := by
  refine ⟨fun i => by rw [sum_smul, hx.1 i, mul_zero], fun j hj => ?_⟩
  rw [Pi.smul_apply, smul_eq_mul]
  exact mul_nonneg hc (hx.2 j hj)

theorem lin_iff (x : Fin L → ℝ) : x ∈ Lineality (ConeOf M rs) ↔ (∀ i, ∑ j, (M i j : ℝ) * x j = 0) ∧ ∀ j, rs j = true → x j = 0 := by
  constructor
  · rintro ⟨h1, h2⟩
    refine ⟨h1.1, fun j hj => le_antisymm ?_ (h1.2 j hj)⟩
    have := h2.2 j hj
    rw [Pi.neg_apply] at this
    linarith
  · rintro ⟨h1, h2⟩
    refine ⟨⟨h1, fun j hj => (h2 j hj).ge⟩, ⟨fun i => ?_, fun j hj => ?_⟩⟩
    · have := sum_smul (M := M) (-1) x i
      rw [neg_one_smul] at this
      rw [this, h1 i, mul_zero]
    · rw [Pi.neg_apply, h2 j hj, neg_zero]

theorem lin_add {x y : Fin L → ℝ} (hx : x ∈ Lineality (ConeOf M rs)) (hy : y ∈ Lineality (ConeOf M rs)) : x + y ∈ Lineality (ConeOf M rs) :=
  ⟨add_mem hx.1 hy.1, by rw [neg_add]; exact add_mem hx.2 hy.2⟩

theorem lin_smul (c : ℝ) {x : Fin L → ℝ} (hx : x ∈ Lineality (ConeOf M rs)) : c • x ∈ Lineality (ConeOf M rs) := by
  rw [lin_iff] at hx ⊢
  refine ⟨fun i => by rw [sum_smul, hx.1 i, mul_zero], fun j hj => ?_⟩
  rw [Pi.smul_apply, hx.2 j hj, smul_zero]

/-- The non-zero ones among the distinguished coordinates. -/
noncomputable def supp (rs : Fin L → Bool) (x : Fin L → ℝ) : Finset (Fin L) := Finset.univ.filter fun j => rs j = true ∧ x j ≠ 0

theorem mem_supp (x : Fin L → ℝ) (j : Fin L) : j ∈ supp rs x ↔ rs j = true ∧ x j ≠ 0 := by simp [supp]

theorem not_mem_supp {x : Fin L → ℝ} {j : Fin L} (hj : rs j = true) (h : j ∉ supp rs x) : x j = 0 := by
  by_contra h0
  exact h ((mem_supp x j).2 ⟨hj, h0⟩)

theorem lin_iff_supp {x : Fin L → ℝ} (hx : x ∈ ConeOf M rs) : x ∈ Lineality (ConeOf M rs) ↔ supp rs x = ∅ := by
  rw [lin_iff, Finset.eq_empty_iff_forall_notMem]
  constructor
  · rintro ⟨-, h⟩ j hj
    exact ((mem_supp x j).1 hj).2 (h j ((mem_supp x j).1 hj).1)
  · intro h
    exact ⟨hx.1, fun j hj => not_mem_supp hj (h j)⟩

theorem supp_congr {x y : Fin L → ℝ} (h : x - y ∈ Lineality (ConeOf M rs)) : supp rs x = supp rs y := by
  rw [lin_iff] at h
  ext j
  rw [mem_supp, mem_supp]
  refine and_congr_right fun hj => ?_
  have := h.2 j hj
  rw [Pi.sub_apply, sub_eq_zero] at this
  rw [this]

theorem supp_smul {c : ℝ} (hc : c ≠ 0) (x : Fin L → ℝ) : supp rs (c • x) = supp rs x := by
  ext j
  rw [mem_supp, mem_supp, Pi.smul_apply, smul_eq_mul, mul_ne_zero_iff]
  simp [hc]

theorem supp_pos {x : Fin L → ℝ} (hx : x ∈ ConeOf M rs) {j : Fin L} (hj : j ∈ supp rs x) : 0 < x j :=
  lt_of_le_of_ne (hx.2 j ((mem_supp x j).1 hj).1) (Ne.symm ((mem_supp x j).1 hj).2)

/-- A vector of the cone that is zero wherever `x` is can be subtracted from `x` until another coordinate becomes zero. -/
theorem reduce {x u : Fin L → ℝ} (hx : x ∈ ConeOf M rs) (hu : u ∈ ConeOf M rs) (hl : u ∉ Lineality (ConeOf M rs)) (hs : supp rs u ⊆ supp rs x) :
    ∃ t : ℝ, 0 < t ∧ x - t • u ∈ ConeOf M rs ∧ supp rs (x - t • u) ⊂ supp rs x := by
  rw [lin_iff_supp hu, ← Ne, ← Finset.nonempty_iff_ne_empty] at hl
  obtain ⟨j0, hj0, hmin⟩ := Finset.exists_min_image (supp rs u) (fun j => x j / u j) hl
  have hu0 := supp_pos hu hj0
  have hx0 := supp_pos hx (hs hj0)
  refine ⟨x j0 / u j0, div_pos hx0 hu0, ⟨fun i => ?_, fun j hj => ?_⟩, ?_⟩
  · have : ∑ j, (M i j : ℝ) * (x - (x j0 / u j0) • u) j = ∑ j, (M i j : ℝ) * x j - (x j0 / u j0) * ∑ j, (M i j : ℝ) * u j := by
      rw [Finset.mul_sum, ← Finset.sum_sub_distrib]
      exact Finset.sum_congr rfl fun j _ => by rw [Pi.sub_apply, Pi.smul_apply, smul_eq_mul]; ring
    rw [this, hx.1 i, hu.1 i, mul_zero, sub_zero]
  · rw [Pi.sub_apply, Pi.smul_apply, smul_eq_mul]
    by_cases h : j ∈ supp rs u
    · have h1 := hmin j h
      have h2 := supp_pos hu h
      rw [le_div_iff₀ h2] at h1
      linarith
    · rw [not_mem_supp hj h, mul_zero, sub_zero]
      exact hx.2 j hj
  · rw [Finset.ssubset_iff_of_subset]
    · refine ⟨j0, hs hj0, fun h => ((mem_supp _ j0).1 h).2 ?_⟩
      rw [Pi.sub_apply, Pi.smul_apply, smul_eq_mul, div_mul_cancel₀ _ hu0.ne', sub_self]
    · intro j hj
      rw [mem_supp] at hj
      by_contra h
      have h1 := not_mem_supp hj.1 h
      have h2 : u j = 0 := not_mem_supp hj.1 fun h' => h (hs h')
      apply hj.2
      rw [Pi.sub_apply, Pi.smul_apply, h1, h2, smul_zero, sub_zero]

/-- Minimal support. -/
def Minimal (M : Fin R → Fin L → ℤ) (rs : Fin L → Bool) (y : Fin L → ℝ) : Prop :=
  y ∈ ConeOf M rs ∧ y ∉ Lineality (ConeOf M rs) ∧ ∀ u ∈ ConeOf M rs, u ∉ Lineality (ConeOf M rs) → supp rs u ⊆ supp rs y → supp rs u = supp rs y

theorem Minimal.extreme {y : Fin L → ℝ} (h : Minimal M rs y) : IsExtremeRay (ConeOf M rs) y := by
  obtain ⟨hy, hl, hm⟩ := h
  refine ⟨hy, fun h => hl ⟨hy, h⟩, fun u hu w hw e => ?_⟩
  by_cases hul : u ∈ Lineality (ConeOf M rs)
  · exact ⟨0, le_rfl, by rwa [zero_smul, sub_zero]⟩
  have hsub : supp rs u ⊆ supp rs y := by
    intro j hj
    rw [mem_supp]
    refine ⟨((mem_supp u j).1 hj).1, ?_⟩
    have h1 := supp_pos hu hj
    have h2 := hw.2 j ((mem_supp u j).1 hj).1
    have h3 := congrFun e j
    rw [Pi.add_apply] at h3
    linarith
  obtain ⟨t, ht, hk, hlt⟩ := reduce hy hu hul hsub
  have hlin : y - t • u ∈ Lineality (ConeOf M rs) := by
    by_contra hn
    exact hlt.ne (hm _ hk hn hlt.subset)
  refine ⟨t⁻¹, inv_nonneg.2 ht.le, ?_⟩
  have := lin_smul (-t⁻¹) hlin
  rwa [smul_sub, smul_smul, neg_mul, inv_mul_cancel₀ ht.ne', neg_smul, neg_smul, one_smul, sub_neg_eq_add, add_comm, ← sub_eq_add_neg] at this

/-- An extreme ray is determined by its support, and by any part of it. -/
theorem extreme_multiple {e u : Fin L → ℝ} (he : IsExtremeRay (ConeOf M rs) e) (hu : u ∈ ConeOf M rs) (hl : u ∉ Lineality (ConeOf M rs))
    (hs : supp rs u ⊆ supp rs e) : ∃ c : ℝ, 0 < c ∧ e - c • u ∈ Lineality (ConeOf M rs) := by
  obtain ⟨t, ht, hk, -⟩ := reduce he.1 hu hl hs
  obtain ⟨c, hc, h⟩ := he.2.2 (t • u) (smul_mem ht.le hu) (e - t • u) hk (by abel)
  have hc0 : c ≠ 0 := by
    rintro rfl
    rw [zero_smul, sub_zero] at h
    have := lin_smul t⁻¹ h
    rw [smul_smul, inv_mul_cancel₀ ht.ne', one_smul] at this
    exact hl this
  have hcp : 0 < c := lt_of_le_of_ne hc (Ne.symm hc0)
  refine ⟨c⁻¹ * t, mul_pos (inv_pos.2 hcp) ht, ?_⟩
  have := lin_smul (-c⁻¹) h
  rwa [smul_sub, smul_smul, smul_smul, neg_mul, neg_mul, inv_mul_cancel₀ hc0, neg_smul, neg_smul, one_smul, sub_neg_eq_add, add_comm, ← sub_eq_add_neg] at this

theorem IsExtremeRay.minimal {e : Fin L → ℝ} (he : IsExtremeRay (ConeOf M rs) e) : Minimal M rs e := by
  refine ⟨he.1, fun h => he.2.1 h.2, fun u hu hl hs => ?_⟩
  obtain ⟨c, hc, h⟩ := extreme_multiple he hu hl hs
  rw [supp_congr h, supp_smul hc.ne']

theorem exists_minimal {x : Fin L → ℝ} (hx : x ∈ ConeOf M rs) (hl : x ∉ Lineality (ConeOf M rs)) : ∃ y, Minimal M rs y ∧ supp rs y ⊆ supp rs x := by
  induction h : (supp rs x).card using Nat.strong_induction_on generalizing x with
  | _ N ih =>
    by_cases hm : Minimal M rs x
    · exact ⟨x, hm, Finset.Subset.refl _⟩
    · have : ∃ u ∈ ConeOf M rs, u ∉ Lineality (ConeOf M rs) ∧ supp rs u ⊆ supp rs x ∧ supp rs u ≠ supp rs x := by
        by_contra hn
        push Not at hn
        exact hm ⟨hx, hl, hn⟩
      obtain ⟨u, hu, hul, hs, hne⟩ := this
      obtain ⟨y, hy, hys⟩ := ih (supp rs u).card (by rw [← h]; exact Finset.card_lt_card (lt_of_le_of_ne hs hne)) hu hul rfl
      exact ⟨y, hy, hys.trans hs⟩

/-- The combination of the listed vectors with the given coefficients. -/
def combine (rays : List (Fin L → ℤ)) (c : Fin rays.length → ℝ) : Fin L → ℝ := ∑ i, c i • toR (rays.get i)

/-- **Every vector of the cone is a non-negative combination of its extreme rays, up to the lineality space.** -/
theorem generates' {rays : List (Fin L → ℤ)} (hext : ∀ r ∈ rays, IsExtremeRay (ConeOf M rs) (toR r))
    (hall : ∀ e, IsExtremeRay (ConeOf M rs) e → ∃ r ∈ rays, ∃ c : ℝ, 0 < c ∧ e - c • toR r ∈ Lineality (ConeOf M rs)) {x : Fin L → ℝ} (hx : x ∈ ConeOf M rs) :
    ∃ c : Fin rays.length → ℝ, (∀ i, 0 ≤ c i) ∧ x - combine rays c ∈ Lineality (ConeOf M rs) := by
  induction hN : (supp rs x).card using Nat.strong_induction_on generalizing x with
  | _ N ih =>
    by_cases hl : x ∈ Lineality (ConeOf M rs)
    · exact ⟨0, fun i => le_rfl, by simpa [combine] using hl⟩
    obtain ⟨y, hy, hys⟩ := exists_minimal hx hl
    obtain ⟨r, hr, c, hc, hd⟩ := hall y hy.extreme
    have hrx := hext r hr
    have hs : supp rs (toR r) ⊆ supp rs x := by
      rw [supp_congr hd, supp_smul hc.ne'] at hys
      exact hys
    obtain ⟨t, ht, hk, hlt⟩ := reduce hx hrx.1 (fun h => hrx.2.1 h.2) hs
    obtain ⟨c', hc', hd'⟩ := ih _ (by rw [← hN]; exact Finset.card_lt_card hlt) hk rfl
    obtain ⟨i, rfl⟩ := List.get_of_mem hr
    refine ⟨c' + Pi.single i t, fun j => add_nonneg (hc' j) ?_, ?_⟩
    · by_cases hj : j = i
      · subst hj; rw [Pi.single_eq_same]; exact ht.le
      · rw [Pi.single_eq_of_ne hj]
    · have : combine rays (c' + Pi.single i t) = combine rays c' + t • toR (rays.get i) := by
        unfold combine
        simp only [Pi.add_apply, add_smul, Finset.sum_add_distrib]
        congr 1
        rw [Finset.sum_eq_single i (fun j _ hj => by rw [Pi.single_eq_of_ne hj, zero_smul]) (fun h => absurd (Finset.mem_univ _) h), Pi.single_eq_same]
      rw [this, ← sub_sub, sub_right_comm]
      exact hd'

theorem generates {rays sub : List (Fin L → ℤ)} (h : IsRayList (ConeOf M rs) rays sub) {x : Fin L → ℝ} (hx : x ∈ ConeOf M rs) :
    ∃ c : Fin rays.length → ℝ, (∀ i, 0 ≤ c i) ∧ x - combine rays c ∈ Lineality (ConeOf M rs) := generates' h.extreme h.all hx

theorem combine_mem {rays sub : List (Fin L → ℤ)} (h : IsRayList (ConeOf M rs) rays sub) (c : Fin rays.length → ℝ) (hc : ∀ i, 0 ≤ c i) :
    combine rays c ∈ ConeOf M rs := by
  unfold combine
  have : ∀ s : Finset (Fin rays.length), ∑ i ∈ s, c i • toR (rays.get i) ∈ ConeOf M rs := by
    intro s
    induction s using Finset.induction_on with
    | empty => exact ⟨fun i => by simp, fun j _ => by simp⟩
    | insert i s hi ih =>
      rw [Finset.sum_insert hi]
      exact add_mem (smul_mem (hc i) (h.extreme _ (List.get_mem _ _)).1) ih
  exact this _

/-- The cone is pointed exactly if the basis of the lineality space is empty. -/
theorem sub_nil_iff {rays sub : List (Fin L → ℤ)} (h : IsRayList (ConeOf M rs) rays sub) : sub = [] ↔ ∀ x ∈ Lineality (ConeOf M rs), x = 0 := by
  constructor
  · rintro rfl x hx
    have hb := (h.basis x).1 hx
    have : IsEmpty (Fin ([] : List (Fin L → ℤ)).length) := inferInstanceAs (IsEmpty (Fin 0))
    rw [Set.range_eq_empty] at hb
    simpa using hb
  · intro hz
    by_contra hne
    have hpos : 0 < sub.length := List.length_pos_iff.2 hne
    have h1 : toR (sub.get ⟨0, hpos⟩) = 0 := hz _ ((h.basis _).2 (Submodule.subset_span ⟨⟨0, hpos⟩, rfl⟩))
    exact h.independent.ne_zero ⟨0, hpos⟩ h1

end Verif.Ti2
