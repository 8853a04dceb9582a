import Verif.Ti2.Generate

/-!
# The contract of the ray algorithm of 4ti2 can be met
-/

namespace Verif.Ti2

open scoped Classical
open Verif.Regular (clear_denominators)

variable {R L : ℕ} {M : Fin R → Fin L → ℤ} {rs : Fin L → Bool}

/-- A rational vector as a real one. -/
def qR (v : Fin L → ℚ) : Fin L → ℝ := fun j => (v j : ℝ)

/-- A basis of the real numbers over the rational ones. -/
noncomputable def hamel := Module.Basis.ofVectorSpace ℚ ℝ

/-- The coordinate of a real vector at an element of this basis. -/
noncomputable def coord (β : Module.Basis.ofVectorSpaceIndex ℚ ℝ) (x : Fin L → ℝ) : Fin L → ℚ := fun j => hamel.repr (x j) β

/-- A real vector is a real combination of its rational coordinates. -/
theorem coord_sum (x : Fin L → ℝ) : ∃ s : Finset (Module.Basis.ofVectorSpaceIndex ℚ ℝ), x = ∑ β ∈ s, (hamel β : ℝ) • qR (coord β x) := by
  refine ⟨Finset.univ.biUnion fun j => (hamel.repr (x j)).support, ?_⟩
  funext j
  have h := hamel.linearCombination_repr (x j)
  rw [Finsupp.linearCombination_apply, Finsupp.sum_of_support_subset (s := Finset.univ.biUnion fun j => (hamel.repr (x j)).support) _
    (Finset.subset_biUnion_of_mem (fun j => (hamel.repr (x j)).support) (Finset.mem_univ j)) (fun i (a : ℚ) => a • hamel i) (fun i _ => zero_smul _ _)] at h
  rw [Finset.sum_apply]
  conv_lhs => rw [← h]
  refine Finset.sum_congr rfl fun β _ => ?_
  rw [Pi.smul_apply, smul_eq_mul, Rat.smul_def, mul_comm]
  rfl

/-- Rational equations hold for the coordinates. -/
theorem coord_eq (a : Fin L → ℚ) (x : Fin L → ℝ) (h : ∑ j, (a j : ℝ) * x j = 0) (β : Module.Basis.ofVectorSpaceIndex ℚ ℝ) : ∑ j, a j * coord β x j = 0 := by
  have h1 : ∑ j, a j • x j = 0 := by
    rw [← h]
    exact Finset.sum_congr rfl fun j _ => Rat.smul_def _ _
  have h2 := congrArg (fun r => hamel.repr r β) h1
  beta_reduce at h2
  rw [map_sum, Finsupp.finsetSum_apply, map_zero, Finsupp.zero_apply] at h2
  rw [← h2]
  refine Finset.sum_congr rfl fun j _ => ?_
  rw [map_smul, Finsupp.smul_apply, smul_eq_mul]
  rfl

/-- The rational kernel: equations of the matrix, and zeros at the coordinates in `Z`. -/
def ratKer (M : Fin R → Fin L → ℤ) (Z : Set (Fin L)) : Submodule ℚ (Fin L → ℚ) where
  carrier := {x | (∀ i, ∑ j, (M i j : ℚ) * x j = 0) ∧ ∀ j ∈ Z, x j = 0}
  zero_mem' := ⟨fun i => by simp, fun j _ => rfl⟩
  add_mem' := by
    rintro x y ⟨h1, h2⟩ ⟨h3, h4⟩
    refine ⟨fun i => ?_, fun j hj => by rw [Pi.add_apply, h2 j hj, h4 j hj, add_zero]⟩
    simp only [Pi.add_apply, mul_add, Finset.sum_add_distrib, h1 i, h3 i, add_zero]
  smul_mem' := by
    rintro c x ⟨h1, h2⟩
    refine ⟨fun i => ?_, fun j hj => by rw [Pi.smul_apply, h2 j hj, smul_zero]⟩
    have : ∑ j, (M i j : ℚ) * (c • x) j = c * ∑ j, (M i j : ℚ) * x j := by
      rw [Finset.mul_sum]
      exact Finset.sum_congr rfl fun j _ => by rw [Pi.smul_apply, smul_eq_mul]; ring
    rw [this, h1 i, mul_zero]

theorem coord_ker (Z : Set (Fin L)) (x : Fin L → ℝ) (h1 : ∀ i, ∑ j, (M i j : ℝ) * x j = 0) (h2 : ∀ j ∈ Z, x j = 0)
    (β : Module.Basis.ofVectorSpaceIndex ℚ ℝ) : coord β x ∈ ratKer M Z := by
  refine ⟨fun i => coord_eq (fun j => (M i j : ℚ)) x (by push_cast; exact h1 i) β, fun j hj => ?_⟩
  unfold coord
  rw [h2 j hj, map_zero, Finsupp.zero_apply]

theorem ker_real {Z : Set (Fin L)} {z : Fin L → ℚ} (h : z ∈ ratKer M Z) : (∀ i, ∑ j, (M i j : ℝ) * qR z j = 0) ∧ ∀ j ∈ Z, qR z j = 0 := by
  refine ⟨fun i => ?_, fun j hj => ?_⟩
  · have := congrArg (fun q : ℚ => (q : ℝ)) (h.1 i)
    push_cast at this
    exact this
  · unfold qR
    rw [h.2 j hj, Rat.cast_zero]

/-- An integer basis of the lineality space. -/
theorem lin_basis (M : Fin R → Fin L → ℤ) (rs : Fin L → Bool) : ∃ sub : List (Fin L → ℤ),
    (∀ x, x ∈ Lineality (ConeOf M rs) ↔ x ∈ Submodule.span ℝ (Set.range fun i : Fin sub.length => toR (sub.get i))) ∧
    LinearIndependent ℝ fun i : Fin sub.length => toR (sub.get i) := by
  set W := ratKer M {j | rs j = true} with hW
  set b := Module.finBasis ℚ W with hb
  have hcl : ∀ i, ∃ (D : ℤ) (z : Fin L → ℤ), 0 < D ∧ ∀ k, (z k : ℚ) = D * (b i : Fin L → ℚ) k := fun i => clear_denominators _
  choose D z hD hz using hcl
  have hlen : (List.ofFn z).length = Module.finrank ℚ W := List.length_ofFn
  have hzD : ∀ i, toR (z i) = (D i : ℝ) • qR (b i : Fin L → ℚ) := by
    intro i
    funext k
    have := congrArg (fun q : ℚ => (q : ℝ)) (hz i k)
    push_cast at this
    exact this
  have hDR : ∀ i, (D i : ℝ) ≠ 0 := fun i => by exact_mod_cast (hD i).ne'
  have hrange : (Set.range fun i : Fin (List.ofFn z).length => toR ((List.ofFn z).get i)) = Set.range fun i => toR (z i) := by
    ext x
    constructor
    · rintro ⟨i, rfl⟩
      exact ⟨Fin.cast hlen i, by simp [Fin.cast]⟩
    · rintro ⟨i, rfl⟩
      exact ⟨Fin.cast hlen.symm i, by simp⟩
  have hmemz : ∀ i, toR (z i) ∈ Lineality (ConeOf M rs) := by
    intro i
    rw [hzD]
    refine lin_smul _ ((lin_iff _).2 ?_)
    exact ker_real (b i).2
  refine ⟨List.ofFn z, fun x => ⟨fun hx => ?_, fun hx => ?_⟩, ?_⟩
  · rw [hrange]
    rw [lin_iff] at hx
    obtain ⟨s, hs⟩ := coord_sum x
    rw [hs]
    refine Submodule.sum_mem _ fun β _ => Submodule.smul_mem _ _ ?_
    have hk : coord β x ∈ W := coord_ker _ x hx.1 hx.2 β
    have e := b.sum_repr ⟨coord β x, hk⟩
    have e2 : qR (coord β x) = ∑ i, ((b.repr ⟨coord β x, hk⟩ i : ℚ) : ℝ) • qR (b i : Fin L → ℚ) := by
      funext j
      have := congrArg (fun w : W => (((w : Fin L → ℚ) j : ℚ) : ℝ)) e
      beta_reduce at this
      unfold qR
      rw [Finset.sum_apply]
      rw [show ((coord β x j : ℚ) : ℝ) = ((((⟨coord β x, hk⟩ : W) : Fin L → ℚ) j : ℚ) : ℝ) from rfl, ← this]
      rw [Submodule.coe_sum, Finset.sum_apply]
      push_cast
      exact Finset.sum_congr rfl fun i _ => by simp
    rw [e2]
    refine Submodule.sum_mem _ fun i _ => Submodule.smul_mem _ _ ?_
    have : qR (b i : Fin L → ℚ) = (D i : ℝ)⁻¹ • toR (z i) := by rw [hzD, smul_smul, inv_mul_cancel₀ (hDR i), one_smul]
    rw [this]
    exact Submodule.smul_mem _ _ (Submodule.subset_span ⟨i, rfl⟩)
  · rw [hrange] at hx
    refine Submodule.span_induction (p := fun x _ => x ∈ Lineality (ConeOf M rs)) ?_ ?_ ?_ ?_ hx
    · rintro _ ⟨i, rfl⟩; exact hmemz i
    · rw [lin_iff]; exact ⟨fun i => by simp, fun j _ => rfl⟩
    · intro x y _ _ h1 h2; exact lin_add h1 h2
    · intro c x _ h; exact lin_smul c h
  · have hli : LinearIndependent ℝ fun i => toR (z i) := by
      rw [Fintype.linearIndependent_iff]
      intro g hg i
      have hg' : ∀ β, ∀ i, hamel.repr (g i * (D i : ℝ)) β = 0 := by
        intro β
        have h0 : ∑ i, hamel.repr (g i * (D i : ℝ)) β • b i = 0 := by
          apply Subtype.ext
          rw [Submodule.coe_sum, Submodule.coe_zero]
          funext j
          rw [Finset.sum_apply, Pi.zero_apply]
          have h1 := congrFun hg j
          rw [Finset.sum_apply, Pi.zero_apply] at h1
          have h2 : ∑ i, ((b i : Fin L → ℚ) j : ℝ) * (g i * (D i : ℝ)) = 0 := by
            rw [← h1]
            refine Finset.sum_congr rfl fun i _ => ?_
            rw [hzD, Pi.smul_apply, Pi.smul_apply, smul_eq_mul, smul_eq_mul]
            unfold qR
            ring
          have h3 := coord_eq (L := Module.finrank ℚ W) (fun i => (b i : Fin L → ℚ) j) (fun i => g i * (D i : ℝ)) h2 β
          rw [← h3]
          refine Finset.sum_congr rfl fun i _ => ?_
          rw [Submodule.coe_smul, Pi.smul_apply, smul_eq_mul, mul_comm]
          rfl
        exact fun i => (Fintype.linearIndependent_iff.1 b.linearIndependent) _ h0 i
      have h4 : g i * (D i : ℝ) = 0 := by
        apply hamel.repr.injective
        rw [map_zero]
        ext β
        exact hg' β i
      exact (mul_eq_zero.1 h4).resolve_right (hDR i)
    have := hli.comp (Fin.cast hlen) (Fin.cast_injective _)
    convert this using 2 with i
    simp [Fin.cast]

/-- Vectors in the kernel that vanish wherever an extreme vector does are multiples of it. -/
theorem kernel_multiple {y z : Fin L → ℝ} (hy : Minimal M rs y) (h1 : ∀ i, ∑ j, (M i j : ℝ) * z j = 0) (h2 : ∀ j, rs j = true → y j = 0 → z j = 0) :
    ∃ c : ℝ, z - c • y ∈ Lineality (ConeOf M rs) := by
  have heps : ∃ ε : ℝ, 0 < ε ∧ ∀ j ∈ supp rs y, |ε * z j| ≤ y j := by
    by_cases hne : (supp rs y).Nonempty
    · obtain ⟨j0, hj0, hmin⟩ := Finset.exists_min_image (supp rs y) (fun j => y j / (|z j| + 1)) hne
      have hp : ∀ j, 0 < |z j| + 1 := fun j => by positivity
      refine ⟨y j0 / (|z j0| + 1), div_pos (supp_pos hy.1 hj0) (hp j0), fun j hj => ?_⟩
      have h := hmin j hj
      rw [abs_mul, abs_of_pos (div_pos (supp_pos hy.1 hj0) (hp j0))]
      calc y j0 / (|z j0| + 1) * |z j| ≤ y j / (|z j| + 1) * |z j| := mul_le_mul_of_nonneg_right h (abs_nonneg _)
        _ ≤ y j / (|z j| + 1) * (|z j| + 1) := mul_le_mul_of_nonneg_left (by linarith) (div_nonneg (supp_pos hy.1 hj).le (hp j).le)
        _ = y j := div_mul_cancel₀ _ (hp j).ne'
    · exact ⟨1, one_pos, fun j hj => absurd ⟨j, hj⟩ hne⟩
  obtain ⟨ε, hε, hle⟩ := heps
  have hmem : ∀ s : ℝ, |s| = ε → y + s • z ∈ ConeOf M rs := by
    intro s hs
    refine ⟨fun i => ?_, fun j hj => ?_⟩
    · have : ∑ j, (M i j : ℝ) * (y + s • z) j = ∑ j, (M i j : ℝ) * y j + ∑ j, (M i j : ℝ) * (s • z) j := by
        rw [← Finset.sum_add_distrib]
        exact Finset.sum_congr rfl fun j _ => by rw [Pi.add_apply]; ring
      rw [this, sum_smul, hy.1.1 i, h1 i, mul_zero, add_zero]
    · rw [Pi.add_apply, Pi.smul_apply, smul_eq_mul]
      by_cases hj' : j ∈ supp rs y
      · have h3 := hle j hj'
        rw [abs_mul, abs_of_pos hε, ← hs, ← abs_mul] at h3
        have := neg_abs_le (s * z j)
        linarith
      · have h3 := not_mem_supp hj hj'
        rw [h3, h2 j hj h3, mul_zero, add_zero]
  obtain ⟨c, -, h⟩ := hy.extreme.2.2 ((1 / 2 : ℝ) • (y + ε • z)) (smul_mem (by norm_num) (hmem ε (abs_of_pos hε))) ((1 / 2 : ℝ) • (y + (-ε) • z))
    (smul_mem (by norm_num) (hmem (-ε) (by rw [abs_neg, abs_of_pos hε]))) (by
      rw [← smul_add]
      funext j
      simp only [Pi.smul_apply, Pi.add_apply, smul_eq_mul]
      ring)
  refine ⟨2 / ε * (c - 1 / 2), ?_⟩
  have h4 := lin_smul (2 / ε) h
  convert h4 using 1
  funext j
  simp only [Pi.sub_apply, Pi.smul_apply, Pi.add_apply, smul_eq_mul]
  field_simp
  ring

/-- An extreme ray contains an integer vector. -/
theorem extreme_integer {y : Fin L → ℝ} (hy : Minimal M rs y) : ∃ z : Fin L → ℤ, Minimal M rs (toR z) ∧ supp rs (toR z) = supp rs y := by
  set Z : Set (Fin L) := {j | rs j = true ∧ y j = 0} with hZ
  obtain ⟨s, hs⟩ := coord_sum y
  have hk : ∀ β, coord β y ∈ ratKer M Z := fun β => coord_ker Z y hy.1.1 (fun j hj => hj.2) β
  -- one of the coordinates is not in the lineality space
  have : ∃ β, qR (coord β y) ∉ Lineality (ConeOf M rs) := by
    by_contra hn
    push Not at hn
    apply hy.2.1
    rw [hs]
    have : ∀ s : Finset (Module.Basis.ofVectorSpaceIndex ℚ ℝ), ∑ β ∈ s, (hamel β : ℝ) • qR (coord β y) ∈ Lineality (ConeOf M rs) := by
      intro s
      induction s using Finset.induction_on with
      | empty => rw [Finset.sum_empty, lin_iff]; exact ⟨fun i => by simp, fun j _ => rfl⟩
      | insert β s hβ ih => rw [Finset.sum_insert hβ]; exact lin_add (lin_smul _ (hn β)) ih
    exact this s
  obtain ⟨β, hβ⟩ := this
  obtain ⟨h1, h2⟩ := ker_real (hk β)
  obtain ⟨c, hc⟩ := kernel_multiple hy h1 fun j hj hj' => h2 j ⟨hj, hj'⟩
  have hc0 : c ≠ 0 := by
    rintro rfl
    rw [zero_smul, sub_zero] at hc
    exact hβ hc
  obtain ⟨D, z, hD, hz⟩ := clear_denominators (coord β y)
  have hDR : (0 : ℝ) < D := by exact_mod_cast hD
  have hzD : toR z = (D : ℝ) • qR (coord β y) := by
    funext k
    have := congrArg (fun q : ℚ => (q : ℝ)) (hz k)
    push_cast at this
    exact this
  -- a multiple of `y` up to the lineality space
  have key : ∀ (w : Fin L → ℤ) (d : ℝ), 0 < d → toR w - d • y ∈ Lineality (ConeOf M rs) → Minimal M rs (toR w) ∧ supp rs (toR w) = supp rs y := by
    intro w d hd hw
    have hsupp : supp rs (toR w) = supp rs y := by rw [supp_congr hw, supp_smul hd.ne']
    have hmem : toR w ∈ ConeOf M rs := by
      have := add_mem hw.1 (smul_mem hd.le hy.1)
      rwa [sub_add_cancel] at this
    refine ⟨⟨hmem, fun h => ?_, fun u hu hl hsub => ?_⟩, hsupp⟩
    · rw [lin_iff_supp hmem, hsupp, ← lin_iff_supp hy.1] at h
      exact hy.2.1 h
    · rw [hsupp] at hsub ⊢
      exact hy.2.2 u hu hl hsub
  rcases lt_or_gt_of_ne hc0 with hneg | hpos
  · refine ⟨-z, key _ (-(D * c)) (by nlinarith) ?_⟩
    have h3 := lin_smul (-(D : ℝ)) hc
    convert h3 using 1
    have : toR (-z) = -toR z := by funext j; simp [toR]
    rw [this, hzD]
    funext j
    simp only [Pi.sub_apply, Pi.smul_apply, Pi.neg_apply, smul_eq_mul]
    ring
  · refine ⟨z, key _ (D * c) (by positivity) ?_⟩
    have h3 := lin_smul (D : ℝ) hc
    convert h3 using 1
    rw [hzD]
    funext j
    simp only [Pi.sub_apply, Pi.smul_apply, smul_eq_mul]
    ring

/-- **Every such cone has a list of its extreme rays and a basis of its lineality space.** -/
theorem rayList_exists (M : Fin R → Fin L → ℤ) (rs : Fin L → Bool) : ∃ rays sub, IsRayList (ConeOf M rs) rays sub := by
  obtain ⟨sub, hb, hi⟩ := lin_basis M rs
  set supports : Finset (Finset (Fin L)) := Finset.univ.filter fun S => ∃ y, Minimal M rs y ∧ supp rs y = S with hsup
  have hch : ∀ S : Finset (Fin L), ∃ z : Fin L → ℤ, S ∈ supports → Minimal M rs (toR z) ∧ supp rs (toR z) = S := by
    intro S
    by_cases hS : S ∈ supports
    · obtain ⟨y, hy, rfl⟩ := (Finset.mem_filter.1 hS).2
      obtain ⟨z, h1, h2⟩ := extreme_integer hy
      exact ⟨z, fun _ => ⟨h1, h2⟩⟩
    · exact ⟨0, fun h => absurd h hS⟩
  choose z hz using hch
  refine ⟨supports.toList.map z, sub, ?_, ?_, ?_, hb, hi⟩
  · intro r hr
    obtain ⟨S, hS, rfl⟩ := List.mem_map.1 hr
    exact (hz S (Finset.mem_toList.1 hS)).1.extreme
  · intro e he
    have hS : supp rs e ∈ supports := Finset.mem_filter.2 ⟨Finset.mem_univ _, e, he.minimal, rfl⟩
    obtain ⟨h1, h2⟩ := hz _ hS
    exact ⟨_, List.mem_map_of_mem (Finset.mem_toList.2 hS), extreme_multiple he h1.1 h1.2.1 h2.subset⟩
  · rw [List.pairwise_map]
    refine (Finset.nodup_toList supports).pairwise_of_forall_ne fun S hS S' hS' hne c hc h => hne ?_
    have h1 := supp_congr h
    rw [supp_smul hc.ne', (hz S (Finset.mem_toList.1 hS)).2, (hz S' (Finset.mem_toList.1 hS')).2] at h1
    exact h1

theorem raysOk_satisfiable : ∃ alg : Rays, RaysOk alg := by
  have : ∀ (R L : ℕ) (M : Fin R → Fin L → ℤ) (rs : Fin L → Bool), ∃ p : List (Fin L → ℤ) × List (Fin L → ℤ), IsRayList (ConeOf M rs) p.1 p.2 := fun R L M rs => by
    obtain ⟨r, s, h⟩ := rayList_exists M rs
    exact ⟨(r, s), h⟩
  choose alg h using this
  exact ⟨alg, h⟩

end Verif.Ti2
