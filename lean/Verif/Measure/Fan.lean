import Mathlib.LinearAlgebra.FiniteDimensional.Basic
import Mathlib.LinearAlgebra.LinearIndependent.Lemmas
import Mathlib.LinearAlgebra.Dual.Lemmas
import Mathlib.GroupTheory.CosetCover
import Mathlib.Data.Real.Basic
import Mathlib.Algebra.CharP.Basic
import Mathlib.Algebra.Order.Archimedean.Basic
import Mathlib.Algebra.CharZero.Infinite
import Mathlib.LinearAlgebra.FiniteDimensional.Lemmas
import Mathlib.LinearAlgebra.Dimension.OrzechProperty
import Mathlib.Tactic.Linarith
import Mathlib.Tactic.FieldSimp

/-! Every pointed finitely generated cone has a decomposition into simplicial cones spanned by its generators.

The decomposition is the one induced by a generic height function `h`: the simplicial cone over a basis `B` of generators is used if the
linear function with the values `h` on `B` is smaller than `h` at all other generators. Coverage is the simplex algorithm. -/

namespace Verif.Measure.Fan

variable {ι W : Type} [Fintype ι] [DecidableEq ι] [AddCommGroup W] [Module ℝ W]

/-- nonnegative combinations of the generators indexed by `s` -/
def coneOf (a : ι → W) (s : Finset ι) : Set W := {x | ∃ l : ι → ℝ, (∀ i ∈ s, 0 ≤ l i) ∧ x = ∑ i ∈ s, l i • a i}

/-- `x` lies in no proper subspace spanned by generators -/
def Generic (a : ι → W) (x : W) : Prop := ∀ s : Finset ι, x ∈ Submodule.span ℝ (a '' s) → Submodule.span ℝ (a '' s) = ⊤

/-- `s` indexes a basis -/
def IsBase (a : ι → W) (s : Finset ι) : Prop := LinearIndepOn ℝ a (s : Set ι) ∧ Submodule.span ℝ (a '' s) = ⊤

omit [Fintype ι] [DecidableEq ι] in
theorem coneOf_subset_span (a : ι → W) (s : Finset ι) : coneOf a s ⊆ Submodule.span ℝ (a '' s) := by
  rintro x ⟨l, _, rfl⟩
  exact Submodule.sum_mem _ fun i hi => Submodule.smul_mem _ _ (Submodule.subset_span ⟨i, hi, rfl⟩)

omit [Fintype ι] [DecidableEq ι] in
theorem ratio (s : Finset ι) (l c : ι → ℝ) (hl : ∀ i ∈ s, 0 ≤ l i) (hc : ∃ i ∈ s, 0 < c i) :
    ∃ i ∈ s, 0 < c i ∧ ∀ k ∈ s, 0 ≤ l k - l i / c i * c k := by
  classical
  obtain ⟨i0, hi0, hc0⟩ := hc
  obtain ⟨i, hi, hmin⟩ := (s.filter fun i => 0 < c i).exists_min_image (fun i => l i / c i) ⟨i0, by simp [hi0, hc0]⟩
  rw [Finset.mem_filter] at hi
  refine ⟨i, hi.1, hi.2, fun k hk => ?_⟩
  by_cases hck : 0 < c k
  · have := hmin k (by simp [hk, hck])
    rw [le_div_iff₀ hck] at this
    linarith
  · push Not at hck
    have h1 : 0 ≤ l i / c i := div_nonneg (hl i hi.1) hi.2.le
    have := mul_nonneg_of_nonpos_of_nonpos (neg_nonpos.2 h1) hck
    have := hl k hk
    linarith

omit [Fintype ι] in
theorem carath (a : ι → W) (x : W) : ∀ (s : Finset ι), x ∈ coneOf a s → ∃ t ⊆ s, LinearIndepOn ℝ a (t : Set ι) ∧ x ∈ coneOf a t := by
  intro s
  induction hn : s.card using Nat.strong_induction_on generalizing s with
  | _ n ih =>
    intro hx
    by_cases hind : LinearIndepOn ℝ a (s : Set ι)
    · exact ⟨s, subset_rfl, hind, hx⟩
    · obtain ⟨c, hc0, i0, hi0, hci0⟩ := not_linearIndepOn_finset_iff.1 hind
      obtain ⟨l, hl, rfl⟩ := hx
      have : ∃ c : ι → ℝ, ∑ i ∈ s, c i • a i = 0 ∧ ∃ i ∈ s, 0 < c i := by
        rcases lt_or_gt_of_ne hci0 with h | h
        · exact ⟨-c, by simp [hc0], i0, hi0, by simpa using h⟩
        · exact ⟨c, hc0, i0, hi0, h⟩
      obtain ⟨c, hc0, hc⟩ := this
      obtain ⟨i, hi, hci, hk⟩ := ratio s l c hl hc
      obtain ⟨t, ht, h1, h2⟩ := ih (s.erase i).card (by rw [← hn]; exact Finset.card_erase_lt_of_mem hi) (s.erase i) rfl
        ⟨fun k => l k - l i / c i * c k, fun k hk' => hk k (Finset.mem_of_mem_erase hk'), by
          have h0 : (l i - l i / c i * c i) • a i = 0 := by
            rw [div_mul_cancel₀ _ hci.ne', sub_self, zero_smul]
          rw [Finset.sum_erase s h0]
          simp only [sub_smul, Finset.sum_sub_distrib, mul_smul, ← Finset.smul_sum, hc0, smul_zero, sub_zero]⟩
      exact ⟨t, ht.trans (Finset.erase_subset _ _), h1, h2⟩

/-- the cone over `B` belongs to the decomposition -/
def Sel (a : ι → W) (h : ι → ℝ) (B : Finset ι) : Prop :=
  IsBase a B ∧ ∃ u : W →ₗ[ℝ] ℝ, (∀ i ∈ B, u (a i) = h i) ∧ ∀ j ∉ B, u (a j) < h j

omit [Fintype ι] [DecidableEq ι] in
/-- linear function with given values on a basis -/
theorem exists_dual (a : ι → W) (h : ι → ℝ) (B : Finset ι) (hB : IsBase a B) : ∃ u : W →ₗ[ℝ] ℝ, ∀ i ∈ B, u (a i) = h i := by
  let b := Module.Basis.mk (v := fun i : B => a i) hB.1 (by
    rw [show Set.range (fun i : B => a i) = a '' B by ext; simp, hB.2])
  refine ⟨b.constr ℝ fun i => h i, fun i hi => ?_⟩
  have := b.constr_basis ℝ (fun i => h i) ⟨i, hi⟩
  have hb : b ⟨i, hi⟩ = a i := Module.Basis.mk_apply _ _ _
  rw [hb] at this
  exact this

omit [Fintype ι] [DecidableEq ι] in
theorem mem_span_iff (a : ι → W) (B : Finset ι) (x : W) : x ∈ Submodule.span ℝ (a '' B) → ∃ c : ι → ℝ, x = ∑ i ∈ B, c i • a i := by
  classical
  intro hx
  refine Submodule.span_induction (p := fun x _ => ∃ c : ι → ℝ, x = ∑ i ∈ B, c i • a i) ?_ ?_ ?_ ?_ hx
  · rintro _ ⟨i, hi, rfl⟩
    refine ⟨Pi.single i 1, ?_⟩
    rw [Finset.sum_eq_single i]
    · simp
    · intro j _ hj; simp [hj]
    · intro h; exact absurd hi h
  · exact ⟨0, by simp⟩
  · rintro x y _ _ ⟨c, rfl⟩ ⟨e, rfl⟩
    exact ⟨c + e, by simp [add_smul, Finset.sum_add_distrib]⟩
  · rintro t x _ ⟨c, rfl⟩
    exact ⟨t • c, by simp [mul_smul, Finset.smul_sum]⟩

/-- heights for which no basis is tight at another generator -/
def GoodHeight (a : ι → W) (h : ι → ℝ) : Prop :=
  ∀ (B : Finset ι) (u : W →ₗ[ℝ] ℝ), IsBase a B → (∀ i ∈ B, u (a i) = h i) → ∀ j ∉ B, u (a j) ≠ h j

theorem exists_goodHeight (a : ι → W) : ∃ h : ι → ℝ, GoodHeight a h := by
  classical
  -- for each `B`, `j` the bad heights form a proper subspace
  let S : Finset ι × ι → Submodule ℝ (ι → ℝ) := fun p =>
    if hB : IsBase a p.1 ∧ p.2 ∉ p.1 then
      let c := (mem_span_iff a p.1 (a p.2) (by rw [hB.1.2]; trivial)).choose
      LinearMap.ker ((LinearMap.proj p.2 : (ι → ℝ) →ₗ[ℝ] ℝ) - ∑ i ∈ p.1, c i • (LinearMap.proj i : (ι → ℝ) →ₗ[ℝ] ℝ))
    else ⊥
  by_cases hι : IsEmpty ι
  · exact ⟨0, fun B u _ _ j => (hι.false j).elim⟩
  · rw [not_isEmpty_iff] at hι
    obtain ⟨i0⟩ := hι
    have htop : (⊤ : Submodule ℝ (ι → ℝ)) ∉ (Finset.univ.image S) := by
      intro hmem
      obtain ⟨p, _, hp⟩ := Finset.mem_image.1 hmem
      simp only [S] at hp
      split_ifs at hp with hB
      · have : (Pi.single p.2 1 : ι → ℝ) ∈ (⊤ : Submodule ℝ (ι → ℝ)) := trivial
        rw [← hp, LinearMap.mem_ker] at this
        simp only [LinearMap.sub_apply, LinearMap.proj_apply, Pi.single_eq_same, LinearMap.sum_apply, LinearMap.smul_apply, smul_eq_mul] at this
        rw [Finset.sum_eq_zero] at this
        · simp at this
        · intro i hi
          have : i ≠ p.2 := fun e => hB.2 (e ▸ hi)
          simp [this]
      · have : (Pi.single i0 1 : ι → ℝ) ∈ (⊤ : Submodule ℝ (ι → ℝ)) := trivial
        rw [← hp, Submodule.mem_bot] at this
        have := congrFun this i0
        simp at this
    have := Subspace.biUnion_ne_univ_of_top_notMem htop
    obtain ⟨h, hh⟩ := (Set.ne_univ_iff_exists_notMem _).1 this
    refine ⟨h, fun B u hB hu j hj e => hh ?_⟩
    simp only [Set.mem_iUnion]
    refine ⟨S (B, j), Finset.mem_image.2 ⟨_, Finset.mem_univ _, rfl⟩, ?_⟩
    have hBj : IsBase a (B, j).1 ∧ (B, j).2 ∉ (B, j).1 := ⟨hB, hj⟩
    simp only [S, dif_pos hBj]
    have hc := (mem_span_iff a B (a j) (by rw [hB.2]; trivial)).choose_spec
    set c := (mem_span_iff a B (a j) (by rw [hB.2]; trivial)).choose
    show h ∈ LinearMap.ker _
    rw [LinearMap.mem_ker]
    simp only [LinearMap.sub_apply, LinearMap.proj_apply, LinearMap.sum_apply, LinearMap.smul_apply, smul_eq_mul]
    rw [sub_eq_zero, ← e]
    conv_lhs => rw [hc]
    rw [map_sum]
    apply Finset.sum_congr rfl
    intro i hi
    rw [map_smul, hu i hi, smul_eq_mul]

omit [Fintype ι] [DecidableEq ι] in
/-- a generic point in the cone over a set: all coefficients of a representation over a basis are positive -/
theorem coef_pos (a : ι → W) (x : W) (hx : Generic a x) (B : Finset ι) (hB : LinearIndepOn ℝ a (B : Set ι)) (l : ι → ℝ)
    (hl : ∀ i ∈ B, 0 ≤ l i) (e : x = ∑ i ∈ B, l i • a i) : ∀ i ∈ B, 0 < l i := by
  classical
  intro i hi
  rcases lt_or_eq_of_le (hl i hi) with h | h
  · exact h
  · exfalso
    have h1 : x ∈ Submodule.span ℝ (a '' (B.erase i : Finset ι)) := by
      rw [e, ← Finset.sum_erase B (a := i) (by rw [← h, zero_smul])]
      exact Submodule.sum_mem _ fun k hk => Submodule.smul_mem _ _ (Submodule.subset_span ⟨k, hk, rfl⟩)
    have h2 := hx _ h1
    have h3 : a i ∈ Submodule.span ℝ (a '' ((B : Set ι) \ {i})) := by
      rw [← Finset.coe_erase, h2]; trivial
    exact hB.notMem_span hi h3

omit [Fintype ι] [DecidableEq ι] in
theorem base_card (a : ι → W) (B : Finset ι) (hB : IsBase a B) : B.card = Module.finrank ℝ W := by
  let b := Module.Basis.mk (v := fun i : B => a i) hB.1 (by
    rw [show Set.range (fun i : B => a i) = a '' B by ext; simp, hB.2])
  rw [Module.finrank_eq_card_basis b, Fintype.card_coe]

omit [Fintype ι] [DecidableEq ι] in
theorem base_of_card [FiniteDimensional ℝ W] (a : ι → W) (B : Finset ι) (hs : Submodule.span ℝ (a '' B) = ⊤)
    (hc : B.card = Module.finrank ℝ W) : IsBase a B := by
  refine ⟨?_, hs⟩
  exact linearIndependent_of_top_le_span_of_card_eq_finrank (b := fun i : B => a i)
    (by rw [show Set.range (fun i : B => a i) = a '' B by ext; simp, hs]) (by rw [Fintype.card_coe, hc])

/-- **Coverage.** -/
theorem cover [FiniteDimensional ℝ W] (a : ι → W) (f : W →ₗ[ℝ] ℝ) (hf : ∀ i, 0 < f (a i)) (h : ι → ℝ) (hh : GoodHeight a h) (x : W)
    (hx : Generic a x) (hxc : x ∈ coneOf a Finset.univ) : ∃ B, Sel a h B ∧ x ∈ coneOf a B := by
  classical
  let cost : Finset ι → ℝ := fun B => if hB : IsBase a B then (exists_dual a h B hB).choose x else 0
  obtain ⟨t, _, ht, hxt⟩ := carath a x Finset.univ hxc
  obtain ⟨B, hB, hmin⟩ := (Finset.univ.filter fun B => IsBase a B ∧ x ∈ coneOf a B).exists_min_image cost
    ⟨t, by simp; exact ⟨⟨ht, hx t (coneOf_subset_span a t hxt)⟩, hxt⟩⟩
  simp only [Finset.mem_filter, Finset.mem_univ, true_and] at hB
  obtain ⟨hB, hxB⟩ := hB
  refine ⟨B, ⟨hB, (exists_dual a h B hB).choose, (exists_dual a h B hB).choose_spec, fun j hj => ?_⟩, hxB⟩
  have hu := (exists_dual a h B hB).choose_spec
  have hcost : cost B = (exists_dual a h B hB).choose x := dif_pos hB
  set u := (exists_dual a h B hB).choose with hudef
  by_contra hlt
  have hgt : h j < u (a j) := lt_of_le_of_ne (not_lt.1 hlt) (Ne.symm (hh B u hB hu j hj))
  obtain ⟨c, hc⟩ := mem_span_iff a B (a j) (by rw [hB.2]; trivial)
  obtain ⟨l, hl, e⟩ := hxB
  have hpos := coef_pos a x hx B hB.1 l hl e
  have hex : ∃ i ∈ B, 0 < c i := by
    by_contra hne
    push Not at hne
    have h1 := hf j
    rw [hc, map_sum] at h1
    have h2 : ∑ i ∈ B, f (c i • a i) ≤ 0 := Finset.sum_nonpos fun i hi => by
      rw [map_smul, smul_eq_mul]; exact mul_nonpos_of_nonpos_of_nonneg (hne i hi) (hf i).le
    linarith
  obtain ⟨i, hi, hci, hk⟩ := ratio B l c hl hex
  set τ := l i / c i with hτ
  have hτp : 0 < τ := div_pos (hpos i hi) hci
  have hzero : l i - τ * c i = 0 := by rw [hτ, div_mul_cancel₀ _ hci.ne', sub_self]
  have hj' : j ∉ B.erase i := fun hm => hj (Finset.mem_of_mem_erase hm)
  let l' : ι → ℝ := fun k => if k = j then τ else l k - τ * c k
  -- any linear combination of the new coefficients
  have hcomb : ∀ (M : Type) [AddCommGroup M] [Module ℝ M] (g : ι → M),
      ∑ k ∈ insert j (B.erase i), l' k • g k = τ • g j + (∑ k ∈ B, l k • g k - τ • ∑ k ∈ B, c k • g k) := by
    intro M _ _ g
    rw [Finset.sum_insert hj']
    have h1 : ∑ k ∈ B.erase i, l' k • g k = ∑ k ∈ B.erase i, (l k - τ * c k) • g k := by
      apply Finset.sum_congr rfl
      intro k hk'
      have : k ≠ j := fun e => hj' (e ▸ hk')
      simp [l', this]
    rw [h1, Finset.sum_erase B (by rw [hzero, zero_smul])]
    simp only [l', if_true, sub_smul, mul_smul, Finset.sum_sub_distrib, ← Finset.smul_sum]
  have hx' : x = ∑ k ∈ insert j (B.erase i), l' k • a k := by
    rw [hcomb W a, ← hc, ← e]; abel
  have hmem : x ∈ coneOf a (insert j (B.erase i)) := by
    refine ⟨l', fun k hk' => ?_, hx'⟩
    by_cases hkj : k = j
    · simp [l', hkj, hτp.le]
    · simp only [l', if_neg hkj]
      rcases Finset.mem_insert.1 hk' with h | h
      · exact absurd h hkj
      · exact hk k (Finset.mem_of_mem_erase h)
  have hB' : IsBase a (insert j (B.erase i)) := by
    apply base_of_card a _ (hx _ (coneOf_subset_span a _ hmem))
    rw [Finset.card_insert_of_notMem hj', Finset.card_erase_of_mem hi, ← base_card a B hB]
    have : 0 < B.card := Finset.card_pos.2 ⟨i, hi⟩
    omega
  have hle := hmin _ (by simp only [Finset.mem_filter, Finset.mem_univ, true_and]; exact ⟨hB', hmem⟩)
  have hu' := (exists_dual a h _ hB').choose_spec
  have hcost' : cost (insert j (B.erase i)) = (exists_dual a h _ hB').choose x := dif_pos hB'
  set u' := (exists_dual a h _ hB').choose
  rw [hcost, hcost'] at hle
  have e1 : u' x = ∑ k ∈ insert j (B.erase i), l' k • h k := by
    conv_lhs => rw [hx']
    rw [map_sum]
    exact Finset.sum_congr rfl fun k hk' => by rw [map_smul, hu' k hk']
  have e2 : u x = ∑ k ∈ B, l k • h k := by
    conv_lhs => rw [e]
    rw [map_sum]
    exact Finset.sum_congr rfl fun k hk' => by rw [map_smul, hu k hk']
  have e3 : u (a j) = ∑ k ∈ B, c k • h k := by
    conv_lhs => rw [hc]
    rw [map_sum]
    exact Finset.sum_congr rfl fun k hk' => by rw [map_smul, hu k hk']
  rw [e1, hcomb ℝ h, ← e2, ← e3] at hle
  simp only [smul_eq_mul] at hle
  nlinarith

omit [Fintype ι] in
/-- **Disjointness.** -/
theorem disjoint_sel (a : ι → W) (h : ι → ℝ) (x : W) (hx : Generic a x) (B B' : Finset ι) (hB : Sel a h B) (hB' : Sel a h B')
    (h1 : x ∈ coneOf a B) (h2 : x ∈ coneOf a B') : B = B' := by
  have key : ∀ B B' : Finset ι, Sel a h B → Sel a h B' → x ∈ coneOf a B → x ∈ coneOf a B' → B' ⊆ B := by
    rintro B B' ⟨hB, u, hu, hu2⟩ ⟨hB', u', hu', hu2'⟩ ⟨l, hl, e⟩ ⟨m, hm, e'⟩
    have hmp := coef_pos a x hx B' hB'.1 m hm e'
    have hle : ∀ (v : W →ₗ[ℝ] ℝ) (C : Finset ι), (∀ i ∈ C, v (a i) = h i) → (∀ j ∉ C, v (a j) < h j) → ∀ i, v (a i) ≤ h i := by
      intro v C h1 h2 i
      by_cases hi : i ∈ C
      · exact (h1 i hi).le
      · exact (h2 i hi).le
    have e1 : u x = ∑ k ∈ B, l k * h k := by
      conv_lhs => rw [e]
      rw [map_sum]
      exact Finset.sum_congr rfl fun k hk' => by rw [map_smul, hu k hk', smul_eq_mul]
    have e2 : u' x = ∑ k ∈ B', m k * h k := by
      conv_lhs => rw [e']
      rw [map_sum]
      exact Finset.sum_congr rfl fun k hk' => by rw [map_smul, hu' k hk', smul_eq_mul]
    have i1 : u' x ≤ u x := by
      rw [e1]; conv_lhs => rw [e]
      rw [map_sum]
      exact Finset.sum_le_sum fun k hk' => by
        rw [map_smul, smul_eq_mul]; exact mul_le_mul_of_nonneg_left (hle u' B' hu' hu2' k) (hl k hk')
    intro j hj
    by_contra hjB
    have i2 : u x < u' x := by
      rw [e2]; conv_lhs => rw [e']
      rw [map_sum]
      apply Finset.sum_lt_sum
      · intro k hk'
        rw [map_smul, smul_eq_mul]; exact mul_le_mul_of_nonneg_left (hle u B hu hu2 k) (hm k hk')
      · exact ⟨j, hj, by rw [map_smul, smul_eq_mul]; exact mul_lt_mul_of_pos_left (hu2 j hjB) (hmp j hj)⟩
    linarith
  exact Finset.Subset.antisymm (key B' B hB' hB h2 h1) (key B B' hB hB' h1 h2)

end Verif.Measure.Fan
