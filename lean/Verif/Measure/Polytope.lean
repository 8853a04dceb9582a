import Verif.Measure.Decomp
import Verif.Measure.Fan
import Mathlib.Analysis.LocallyConvex.Separation

/-! A polytope has a triangulation on its vertices, and at every vertex the simplices containing it decompose the tangent cone. -/

namespace Verif.Measure

open MeasureTheory Set Fan

variable {n : ℕ} {ι : Type} [Fintype ι] [DecidableEq ι]

/-- homogeneous coordinates -/
def lift (v : ι → Fin n → ℝ) (i : ι) : (Fin n → ℝ) × ℝ := (v i, 1)

/-- the tangent cone at `v k`, moved to the origin -/
def tcone (v : ι → Fin n → ℝ) (k : ι) : Set (Fin n → ℝ) := {y | ∃ m : ι → ℝ, (∀ w, 0 ≤ m w) ∧ y = ∑ w, m w • (v w - v k)}

theorem convexHull_range {κ : Type} [Fintype κ] (v : κ → Fin n → ℝ) :
    convexHull ℝ (range v) = {x | ∃ l : κ → ℝ, (∀ i, 0 ≤ l i) ∧ ∑ i, l i = 1 ∧ x = ∑ i, l i • v i} := by
  classical
  apply Subset.antisymm
  · apply convexHull_min
    · rintro _ ⟨i, rfl⟩
      refine ⟨Pi.single i 1, fun k => ?_, by simp, by simp [Pi.single_apply]⟩
      by_cases h : k = i
      · subst h; simp
      · simp [h]
    · rintro _ ⟨l, h1, h2, rfl⟩ _ ⟨m, g1, g2, rfl⟩ a b ha hb hab
      refine ⟨a • l + b • m, fun i => add_nonneg (mul_nonneg ha (h1 i)) (mul_nonneg hb (g1 i)), ?_, ?_⟩
      · simp only [Pi.add_apply, Pi.smul_apply, smul_eq_mul, Finset.sum_add_distrib, ← Finset.mul_sum, h2, g2, mul_one, hab]
      · simp only [Pi.add_apply, Pi.smul_apply, smul_eq_mul, add_smul, mul_smul, Finset.sum_add_distrib, Finset.smul_sum]
  · rintro _ ⟨l, h1, h2, rfl⟩
    exact (convex_convexHull ℝ (range v)).sum_mem (fun i _ => h1 i) h2 fun i _ => subset_convexHull ℝ _ ⟨i, rfl⟩

theorem sum_lift {κ : Type} (s : Finset κ) (l : κ → ℝ) (v : κ → Fin n → ℝ) :
    ∑ i ∈ s, l i • lift v i = (∑ i ∈ s, l i • v i, ∑ i ∈ s, l i) := by
  apply Prod.ext
  · simp [lift, Prod.fst_sum]
  · simp [lift, Prod.snd_sum]

/-- slices of proper subspaces are null -/
theorem slice_null (S : Submodule ℝ ((Fin n → ℝ) × ℝ)) (hS : S ≠ ⊤) : volume {x : Fin n → ℝ | ((x, 1) : (Fin n → ℝ) × ℝ) ∈ S} = 0 := by
  by_cases hne : ∃ x0 : Fin n → ℝ, ((x0, 1) : (Fin n → ℝ) × ℝ) ∈ S
  · obtain ⟨x0, h0⟩ := hne
    let L : Submodule ℝ (Fin n → ℝ) := S.comap (LinearMap.inl ℝ (Fin n → ℝ) ℝ)
    have hL : L ≠ ⊤ := by
      intro h
      apply hS
      rw [eq_top_iff]
      rintro ⟨y, t⟩ _
      have h1 : y - t • x0 ∈ L := by rw [h]; trivial
      have h2 : ((y - t • x0, 0) : (Fin n → ℝ) × ℝ) ∈ S := h1
      have := S.add_mem h2 (S.smul_mem t h0)
      simpa using this
    have h1 := Measure.addHaar_submodule (volume : Measure (Fin n → ℝ)) L hL
    have : {x : Fin n → ℝ | ((x, 1) : (Fin n → ℝ) × ℝ) ∈ S} = (fun y => -x0 + y) ⁻¹' (L : Set (Fin n → ℝ)) := by
      ext x
      simp only [mem_ofPred_eq, mem_preimage]
      constructor
      · intro h
        have := S.sub_mem h h0
        show (( -x0 + x, 0) : (Fin n → ℝ) × ℝ) ∈ S
        simpa [neg_add_eq_sub] using this
      · intro h
        have h' : (( -x0 + x, 0) : (Fin n → ℝ) × ℝ) ∈ S := h
        have := S.add_mem h' h0
        simpa using this
    rw [this, measure_preimage_add, h1]
  · push Not at hne
    have : {x : Fin n → ℝ | ((x, 1) : (Fin n → ℝ) × ℝ) ∈ S} = ∅ := by ext x; simpa using hne x
    rw [this, measure_empty]

omit [DecidableEq ι] in
theorem generic_ae (v : ι → Fin n → ℝ) : volume {x : Fin n → ℝ | ¬ Generic (lift v) (x, 1)} = 0 := by
  have : {x : Fin n → ℝ | ¬ Generic (lift v) (x, 1)} ⊆ ⋃ s : Finset ι, {x | ((x, 1) : (Fin n → ℝ) × ℝ) ∈ Submodule.span ℝ (lift v '' s) ∧ Submodule.span ℝ (lift v '' s) ≠ ⊤} := by
    intro x hx
    simp only [mem_ofPred_eq, Generic] at hx
    push Not at hx
    obtain ⟨s, h1, h2⟩ := hx
    exact mem_iUnion.2 ⟨s, h1, h2⟩
  apply measure_mono_null this
  apply measure_iUnion_null
  intro s
  by_cases h : Submodule.span ℝ (lift v '' (s : Set ι)) = ⊤
  · have : {x : Fin n → ℝ | ((x, 1) : (Fin n → ℝ) × ℝ) ∈ Submodule.span ℝ (lift v '' s) ∧ Submodule.span ℝ (lift v '' (s : Set ι)) ≠ ⊤} = ∅ := by
      ext x; simp [h]
    rw [this, measure_empty]
  · exact measure_mono_null (fun x hx => hx.1) (slice_null _ h)

/-- directions at `v k` in a proper subspace spanned by lifted points through `v k` -/
def badDir (v : ι → Fin n → ℝ) (k : ι) : Set (Fin n → ℝ) :=
  {y | ∃ s : Finset ι, Submodule.span ℝ (lift v '' s) ≠ ⊤ ∧ lift v k ∈ Submodule.span ℝ (lift v '' s) ∧
    ((y, 0) : (Fin n → ℝ) × ℝ) ∈ Submodule.span ℝ (lift v '' s)}

omit [DecidableEq ι] in
theorem badDir_null (v : ι → Fin n → ℝ) (k : ι) : volume (badDir v k) = 0 := by
  have : badDir v k ⊆ ⋃ s : Finset ι, {y | Submodule.span ℝ (lift v '' s) ≠ ⊤ ∧ lift v k ∈ Submodule.span ℝ (lift v '' s) ∧
    ((y, 0) : (Fin n → ℝ) × ℝ) ∈ Submodule.span ℝ (lift v '' s)} := fun y ⟨s, h⟩ => mem_iUnion.2 ⟨s, h⟩
  apply measure_mono_null this
  apply measure_iUnion_null
  intro s
  set S := Submodule.span ℝ (lift v '' (s : Set ι))
  by_cases h : S ≠ ⊤ ∧ lift v k ∈ S
  · let L : Submodule ℝ (Fin n → ℝ) := S.comap (LinearMap.inl ℝ (Fin n → ℝ) ℝ)
    have hL : L ≠ ⊤ := by
      intro hL
      apply h.1
      rw [eq_top_iff]
      rintro ⟨y, t⟩ _
      have h1 : y - t • v k ∈ L := by rw [hL]; trivial
      have h2 : ((y - t • v k, 0) : (Fin n → ℝ) × ℝ) ∈ S := h1
      have := S.add_mem h2 (S.smul_mem t h.2)
      simpa [lift] using this
    exact measure_mono_null (fun y hy => hy.2.2) (Measure.addHaar_submodule (volume : Measure (Fin n → ℝ)) L hL)
  · have : {y : Fin n → ℝ | S ≠ ⊤ ∧ lift v k ∈ S ∧ ((y, 0) : (Fin n → ℝ) × ℝ) ∈ S} = ∅ := by
      ext y
      simp only [mem_ofPred_eq, mem_empty_iff_false, iff_false]
      exact fun hy => h ⟨hy.1, hy.2.1⟩
    rw [this, measure_empty]

omit [DecidableEq ι] in
/-- a good direction leads to generic points arbitrarily close to `v k` -/
theorem exists_small_generic (v : ι → Fin n → ℝ) (k : ι) (y : Fin n → ℝ) (hy : y ∉ badDir v k) (d : ℝ) (hd : 0 < d) :
    ∃ t : ℝ, 0 < t ∧ t < d ∧ Generic (lift v) (v k + t • y, 1) := by
  have hfin : (⋃ s : Finset ι, {t : ℝ | Submodule.span ℝ (lift v '' (s : Set ι)) ≠ ⊤ ∧
      ((v k + t • y, 1) : (Fin n → ℝ) × ℝ) ∈ Submodule.span ℝ (lift v '' (s : Set ι))}).Finite := by
    apply Set.finite_iUnion
    intro s
    set S := Submodule.span ℝ (lift v '' (s : Set ι)) with hS
    apply Set.Subsingleton.finite
    rintro t ⟨h1, h2⟩ t' ⟨_, h2'⟩
    by_contra hne
    apply hy
    have hd : ((y, 0) : (Fin n → ℝ) × ℝ) ∈ S := by
      have := S.smul_mem (t - t')⁻¹ (S.sub_mem h2 h2')
      have h3 : (t - t') ≠ 0 := sub_ne_zero.2 hne
      have e : (v k + t • y) - (v k + t' • y) = (t - t') • y := by rw [sub_smul]; abel
      simp only [Prod.mk_sub_mk, sub_self, Prod.smul_mk, smul_zero, e, smul_smul, inv_mul_cancel₀ h3, one_smul] at this
      exact this
    refine ⟨s, h1, ?_, hd⟩
    have := S.sub_mem h2 (S.smul_mem t hd)
    simpa [lift] using this
  obtain ⟨t, ht, hn⟩ := (Set.Infinite.sdiff (Ioo_infinite hd) hfin).nonempty
  refine ⟨t, ht.1, ht.2, fun s hs => ?_⟩
  by_contra h
  exact hn (mem_iUnion.2 ⟨s, h, hs⟩)

omit [DecidableEq ι] in
/-- a vertex is strictly exposed -/
theorem exists_exposing (v : ι → Fin n → ℝ) (k : ι) (hk : v k ∉ convexHull ℝ (v '' {k}ᶜ)) :
    ∃ (e : Fin n → ℝ) (g : ℝ), 0 < g ∧ ∀ w, w ≠ k → ip e (v w) ≤ ip e (v k) - g := by
  have hfin : (v '' {k}ᶜ).Finite := (Set.toFinite _)
  obtain ⟨f, u, h1, h2⟩ := geometric_hahn_banach_closed_point (convex_convexHull ℝ (v '' {k}ᶜ))
    (hfin.isCompact_convexHull (𝕜 := ℝ)).isClosed hk
  have hf : ∀ x, f x = ip (fun i => f (Pi.single i 1)) x := by
    intro x
    conv_lhs => rw [← Finset.univ_sum_single x]
    rw [map_sum]
    unfold ip
    apply Finset.sum_congr rfl
    intro i _
    have : (Pi.single i (x i) : Fin n → ℝ) = x i • Pi.single i 1 := by rw [← Pi.single_smul]; simp
    rw [this, map_smul, smul_eq_mul, mul_comm]
  refine ⟨fun i => f (Pi.single i 1), f (v k) - u, by linarith, fun w hw => ?_⟩
  rw [← hf, ← hf]
  have := h1 (v w) (subset_convexHull ℝ _ ⟨w, by simpa using hw, rfl⟩)
  linarith

/-- rays of the simplex `s` at its vertex `j` -/
def edges (s : Fin (n + 1) → Fin n → ℝ) (j : Fin (n + 1)) : Fin n → Fin n → ℝ := fun i => s (j.succAbove i) - s j

/-- **A polytope has a triangulation on its vertices, which induces decompositions of the tangent cones.** -/
theorem exists_triangulation (v : ι → Fin n → ℝ) : ∃ (T : Type) (_ : Fintype T) (e : T → Fin (n + 1) → ι),
    (∀ b, Function.Injective (e b)) ∧
    (convexHull ℝ (range v) =ᵐ[volume] ⋃ b, convexHull ℝ (range (v ∘ e b))) ∧
    (Pairwise fun b b' => volume (convexHull ℝ (range (v ∘ e b)) ∩ convexHull ℝ (range (v ∘ e b'))) = 0) ∧
    ∀ k, v k ∉ convexHull ℝ (v '' {k}ᶜ) →
      Decomp n (tcone v k) (fun p : {p : T × Fin (n + 1) // e p.1 p.2 = k} => edges (v ∘ e p.1.1) p.1.2) := by
  classical
  obtain ⟨h, hh⟩ := exists_goodHeight (lift v)
  have hfin : Module.finrank ℝ ((Fin n → ℝ) × ℝ) = n + 1 := by simp
  have hcard : ∀ b : {B : Finset ι // Sel (lift v) h B}, b.1.card = n + 1 := fun b => by
    rw [base_card (lift v) b.1 b.2.1, hfin]
  let e : {B : Finset ι // Sel (lift v) h B} → Fin (n + 1) → ι := fun b j => ((b.1.equivFinOfCardEq (hcard b)).symm j : ι)
  have einj : ∀ b, Function.Injective (e b) := fun b => Subtype.val_injective.comp (Equiv.injective _)
  have emem : ∀ b i, i ∈ b.1 ↔ ∃ j, e b j = i := by
    intro b i
    constructor
    · intro hi; exact ⟨b.1.equivFinOfCardEq (hcard b) ⟨i, hi⟩, by simp [e]⟩
    · rintro ⟨j, rfl⟩; exact Subtype.mem _
  have esum : ∀ (b) (M : Type) [AddCommGroup M] (g : ι → M), ∑ i ∈ b.1, g i = ∑ j, g (e b j) := by
    intro b M _ g
    rw [← Finset.sum_coe_sort]
    exact ((b.1.equivFinOfCardEq (hcard b)).symm.sum_comp (fun i : b.1 => g i)).symm
  -- membership in a simplex
  have hmem : ∀ (b) (x : Fin n → ℝ), ((x, 1) : (Fin n → ℝ) × ℝ) ∈ coneOf (lift v) b.1 ↔ x ∈ convexHull ℝ (range (v ∘ e b)) := by
    intro b x
    rw [convexHull_range]
    constructor
    · rintro ⟨l, hl, hx⟩
      rw [sum_lift, Prod.mk.injEq, esum b, esum b] at hx
      exact ⟨fun j => l (e b j), fun j => hl _ ((emem b _).2 ⟨j, rfl⟩), hx.2.symm, hx.1⟩
    · rintro ⟨l, h0, h1, rfl⟩
      have hl : ∀ j, Function.extend (e b) l 0 (e b j) = l j := fun j => (einj b).extend_apply l 0 j
      refine ⟨Function.extend (e b) l 0, fun i hi => ?_, ?_⟩
      · obtain ⟨j, rfl⟩ := (emem b i).1 hi
        rw [hl]; exact h0 j
      · rw [sum_lift, esum b, esum b]
        simp only [hl, h1, Function.comp]
  have hPmem : ∀ x : Fin n → ℝ, x ∈ convexHull ℝ (range v) → ((x, 1) : (Fin n → ℝ) × ℝ) ∈ coneOf (lift v) Finset.univ := by
    intro x hx
    rw [convexHull_range] at hx
    obtain ⟨l, h0, h1, rfl⟩ := hx
    exact ⟨l, fun i _ => h0 i, by rw [sum_lift, h1]⟩
  have hcover : ∀ x : Fin n → ℝ, Generic (lift v) (x, 1) → x ∈ convexHull ℝ (range v) → ∃ b, x ∈ convexHull ℝ (range (v ∘ e b)) := by
    intro x hg hx
    obtain ⟨B, hB, hxB⟩ := cover (lift v) (LinearMap.snd ℝ (Fin n → ℝ) ℝ) (fun i => by simp [lift]) h hh (x, 1) hg (hPmem x hx)
    exact ⟨⟨B, hB⟩, (hmem ⟨B, hB⟩ x).1 hxB⟩
  have hdis : ∀ x : Fin n → ℝ, Generic (lift v) (x, 1) → ∀ b b', x ∈ convexHull ℝ (range (v ∘ e b)) → x ∈ convexHull ℝ (range (v ∘ e b')) → b = b' := by
    intro x hg b b' h1 h2
    exact Subtype.ext (disjoint_sel (lift v) h (x, 1) hg b.1 b'.1 b.2 b'.2 ((hmem b x).2 h1) ((hmem b' x).2 h2))
  refine ⟨_, Fintype.ofFinite _, e, einj, ?_, ?_, ?_⟩
  · have hsub : (⋃ b, convexHull ℝ (range (v ∘ e b))) ⊆ convexHull ℝ (range v) :=
      iUnion_subset fun b => convexHull_mono (range_comp_subset_range _ _)
    apply ae_eq_set.2
    refine ⟨measure_mono_null ?_ (generic_ae v), ?_⟩
    · rintro x ⟨hx, hn⟩ hg
      exact hn (mem_iUnion.2 (hcover x hg hx))
    · rw [sdiff_eq_empty.2 hsub, measure_empty]
  · intro b b' hne
    apply measure_mono_null _ (generic_ae v)
    rintro x ⟨h1, h2⟩ hg
    exact hne (hdis x hg b b' h1 h2)
  · intro k hk
    obtain ⟨η, g, hg, hη⟩ := exists_exposing v k hk
    -- small steps from `v k` in the cone of a simplex stay in the simplex
    have hstep : ∀ (p : {p : {B : Finset ι // Sel (lift v) h B} × Fin (n + 1) // e p.1 p.2 = k}) (y : Fin n → ℝ), y ∈ scone n (edges (v ∘ e p.1.1) p.1.2) →
        ∃ d : ℝ, 0 < d ∧ ∀ t, 0 < t → t < d → v k + t • y ∈ convexHull ℝ (range (v ∘ e p.1.1)) := by
      rintro ⟨⟨b, j⟩, hj⟩ y ⟨c, hc, rfl⟩
      simp only at hj
      have hs : 0 ≤ ∑ i, c i := Finset.sum_nonneg fun i _ => hc i
      refine ⟨1 / (1 + ∑ i, c i), by positivity, fun t ht htd => ?_⟩
      rw [lt_div_iff₀ (by positivity)] at htd
      rw [convexHull_range]
      refine ⟨Fin.insertNth j (1 - t * ∑ i, c i) (fun i => t * c i), ?_, ?_, ?_⟩
      · intro i
        rcases Fin.eq_self_or_eq_succAbove j i with rfl | ⟨i', rfl⟩
        · simp only [Fin.insertNth_apply_same]; nlinarith
        · simp only [Fin.insertNth_apply_succAbove]; exact mul_nonneg ht.le (hc i')
      · rw [Fin.sum_univ_succAbove _ j]
        simp only [Fin.insertNth_apply_same, Fin.insertNth_apply_succAbove, ← Finset.mul_sum]; ring
      · rw [Fin.sum_univ_succAbove _ j]
        simp only [Fin.insertNth_apply_same, Fin.insertNth_apply_succAbove, edges, Function.comp, hj, smul_sub,
          Finset.sum_sub_distrib, sub_smul, one_smul, mul_smul, ← Finset.sum_smul, ← Finset.smul_sum]
        abel
    constructor
    · have hsub : (⋃ p : {p : {B : Finset ι // Sel (lift v) h B} × Fin (n + 1) // e p.1 p.2 = k}, scone n (edges (v ∘ e p.1.1) p.1.2)) ⊆ tcone v k := by
        apply iUnion_subset
        rintro ⟨⟨b, j⟩, hj⟩ y ⟨c, hc, rfl⟩
        simp only at hj
        have hinj : Function.Injective fun i => e b (j.succAbove i) := (einj b).comp Fin.succAbove_right_injective
        refine ⟨Function.extend (fun i => e b (j.succAbove i)) c 0, fun w => ?_, ?_⟩
        · by_cases hw : ∃ i, e b (j.succAbove i) = w
          · obtain ⟨i, rfl⟩ := hw
            rw [hinj.extend_apply c 0 i]; exact hc i
          · rw [Function.extend_apply' _ _ _ hw]; simp
        · rw [← Finset.sum_subset (Finset.subset_univ (Finset.univ.image fun i => e b (j.succAbove i)))]
          · rw [Finset.sum_image (fun a _ b _ h => hinj h)]
            apply Finset.sum_congr rfl
            intro i _
            rw [hinj.extend_apply c 0 i]
            simp [edges, hj]
          · intro w _ hw
            rw [Function.extend_apply' _ _ _ (by simpa using hw)]
            simp
      apply ae_eq_set.2
      refine ⟨measure_mono_null ?_ (badDir_null v k), by rw [sdiff_eq_empty.2 hsub, measure_empty]⟩
      rintro y ⟨⟨m, hm, hy⟩, hn⟩
      by_contra hgood
      apply hn
      have hs : 0 ≤ ∑ w, m w := Finset.sum_nonneg fun w _ => hm w
      obtain ⟨t, ht, htd, hgen⟩ := exists_small_generic v k y hgood (min (1 / (1 + ∑ w, m w)) (g / (1 + |ip η y|)))
        (lt_min (by positivity) (by positivity))
      have ht1 : t * (1 + ∑ w, m w) < 1 := by
        have := lt_of_lt_of_le htd (min_le_left _ _)
        rwa [lt_div_iff₀ (by positivity)] at this
      have ht2 : t * (1 + |ip η y|) < g := by
        have := lt_of_lt_of_le htd (min_le_right _ _)
        rwa [lt_div_iff₀ (by positivity)] at this
      have hP : v k + t • y ∈ convexHull ℝ (range v) := by
        rw [convexHull_range]
        refine ⟨fun w => t * m w + if w = k then 1 - t * ∑ w, m w else 0, fun w => ?_, ?_, ?_⟩
        · have := mul_nonneg ht.le (hm w)
          show 0 ≤ t * m w + if w = k then 1 - t * ∑ w, m w else 0
          split_ifs
          · nlinarith
          · linarith
        · rw [Finset.sum_add_distrib, ← Finset.mul_sum]; simp
        · simp only [add_smul, Finset.sum_add_distrib, ite_smul, zero_smul, Finset.sum_ite_eq', Finset.mem_univ, if_true]
          rw [hy]
          simp only [smul_sub, Finset.sum_sub_distrib, ← Finset.sum_smul, sub_smul, one_smul, mul_smul, ← Finset.smul_sum]
          abel
      obtain ⟨b, hb⟩ := hcover _ hgen hP
      rw [convexHull_range] at hb
      obtain ⟨l, l0, l1, le⟩ := hb
      have hkB : ∃ j, e b j = k := by
        by_contra hne
        push Not at hne
        have e1 : ip η (v k + t • y) = ∑ j, l j * ip η (v (e b j)) := by rw [le, ip_sum]; rfl
        have e2 : ∑ j, l j * ip η (v (e b j)) ≤ ∑ j, l j * (ip η (v k) - g) :=
          Finset.sum_le_sum fun j _ => mul_le_mul_of_nonneg_left (hη _ (hne j)) (l0 j)
        rw [← Finset.sum_mul, l1, one_mul, ← e1, ip_add, ip_smul] at e2
        have : -|ip η y| ≤ ip η y := neg_abs_le _
        nlinarith
      obtain ⟨j, hj⟩ := hkB
      refine mem_iUnion.2 ⟨⟨⟨b, j⟩, hj⟩, fun i => l (j.succAbove i) / t, fun i => div_nonneg (l0 _) ht.le, ?_⟩
      have h1 : t • y = ∑ i, l (j.succAbove i) • edges (v ∘ e b) j i := by
        rw [Fin.sum_univ_succAbove _ j] at le l1
        simp only [edges, Function.comp, smul_sub, Finset.sum_sub_distrib, ← Finset.sum_smul, hj] at le ⊢
        have h2 : ∑ i, l (j.succAbove i) = 1 - l j := by linarith
        rw [h2, sub_smul, one_smul, eq_sub_iff_add_eq, eq_comm]
        have h3 : l j • v k + ∑ i, l (j.succAbove i) • v (e b (j.succAbove i)) = v k + t • y := le.symm
        calc _ = (l j • v k + ∑ i, l (j.succAbove i) • v (e b (j.succAbove i))) - l j • v k := by abel
          _ = _ := by rw [h3]; abel
      have h2 : y = t⁻¹ • ∑ i, l (j.succAbove i) • edges (v ∘ e b) j i := by
        rw [← h1, smul_smul, inv_mul_cancel₀ ht.ne', one_smul]
      rw [Finset.smul_sum] at h2
      rw [h2]
      apply Finset.sum_congr rfl
      intro i _
      show t⁻¹ • l (j.succAbove i) • edges (v ∘ e b) j i = (l (j.succAbove i) / t) • edges (v ∘ e b) j i
      rw [smul_smul, div_eq_inv_mul]
    · rintro p p' hne
      apply measure_mono_null _ (badDir_null v k)
      rintro y ⟨h1, h2⟩
      by_contra hgood
      obtain ⟨d, hd, hd'⟩ := hstep p y h1
      obtain ⟨d2, hd2, hd2'⟩ := hstep p' y h2
      obtain ⟨t, ht, htd, hgen⟩ := exists_small_generic v k y hgood (min d d2) (lt_min hd hd2)
      have hb := hdis _ hgen p.1.1 p'.1.1 (hd' t ht (lt_of_lt_of_le htd (min_le_left _ _))) (hd2' t ht (lt_of_lt_of_le htd (min_le_right _ _)))
      apply hne
      apply Subtype.ext
      apply Prod.ext hb
      apply einj p.1.1
      rw [p.2, hb, p'.2]

end Verif.Measure
