import Verif.Measure.Polytope

/-! Lawrence's formula for polytopes. -/

namespace Verif.Measure

open MeasureTheory Set Fan Filter Topology

variable {n : ℕ} {ι : Type} [Fintype ι] [DecidableEq ι]

theorem abs_det_edges (s : Fin (n + 1) → Fin n → ℝ) (j : Fin (n + 1)) : |(colMat n (edges s j)).det| = |(edgeMat n s).det| := by
  let s' : Fin (n + 1) → Fin n → ℝ := s ∘ (Fin.cycleRange j).symm
  have h1 : colMat n (edges s j) = edgeMat n s' := by
    ext a i
    simp [colMat, edges, edgeMat, s', Fin.cycleRange_symm_zero, Fin.cycleRange_symm_succ]
  have h2 : range s' = range s := (Fin.cycleRange j).symm.surjective.range_comp s
  have a := volume_simplex n s'
  have b := volume_simplex n s
  rw [h2, b] at a
  have hf : (n.factorial : ℝ) ≠ 0 := by positivity
  rw [h1]
  field_simp at a
  exact a.symm

theorem integral_union_simplices {T : Type} [Fintype T] (P : Set (Fin n → ℝ)) (s : T → Fin (n + 1) → Fin n → ℝ)
    (hcov : P =ᵐ[volume] ⋃ b, convexHull ℝ (range (s b)))
    (hov : Pairwise fun b b' => volume (convexHull ℝ (range (s b)) ∩ convexHull ℝ (range (s b'))) = 0) (f : (Fin n → ℝ) → ℝ) (hf : Continuous f) :
    ∫ x in P, f x = ∑ b, ∫ x in convexHull ℝ (range (s b)), f x := by
  have hc : ∀ b, IsCompact (convexHull ℝ (range (s b))) := fun b => (finite_range (s b)).isCompact_convexHull (𝕜 := ℝ)
  rw [setIntegral_congr_set hcov, integral_iUnion_ae (fun b => (hc b).measurableSet.nullMeasurableSet) hov, tsum_fintype]
  rw [integrableOn_finite_iUnion]
  exact fun b => hf.continuousOn.integrableOn_compact (hc b)

theorem hom_continuous (k M : ℕ) : Continuous (fun y : Fin k → ℝ => hom k M y) := by
  unfold hom; fun_prop

omit [DecidableEq ι] in
theorem ip_tcone_neg (v : ι → Fin n → ℝ) (k : ι) (e : Fin n → ℝ) (g : ℝ) (hg : 0 < g) (he : ∀ w, w ≠ k → ip e (v w) ≤ ip e (v k) - g)
    (y : Fin n → ℝ) (hy : y ∈ tcone v k) (h0 : y ≠ 0) : ip e y < 0 := by
  obtain ⟨m, hm, rfl⟩ := hy
  rw [ip_sum]
  have hle : ∀ w, m w * ip e (v w - v k) ≤ 0 := by
    intro w
    by_cases hw : w = k
    · rw [hw, sub_self, ip_zero, mul_zero]
    · rw [ip_sub]
      exact mul_nonpos_of_nonneg_of_nonpos (hm w) (by linarith [he w hw])
  by_contra hneg
  push Not at hneg
  have hz := (Finset.sum_eq_zero_iff_of_nonpos (fun w _ => hle w)).1 (le_antisymm (Finset.sum_nonpos fun w _ => hle w) hneg)
  apply h0
  apply Finset.sum_eq_zero
  intro w hw
  by_cases hwk : w = k
  · rw [hwk, sub_self, smul_zero]
  · have := hz w hw
    rw [ip_sub] at this
    rcases mul_eq_zero.1 this with h | h
    · rw [h, zero_smul]
    · linarith [he w hwk]

/-- **Lawrence's formula.** `v` are the vertices of a polytope; at each vertex `k` the simplicial cones spanned by the rays `ρ k c` decompose
the tangent cone. For every linear form not orthogonal to a ray, the integral of its powers is the sum of the contributions of the cones. -/
theorem lawrence (v : ι → Fin n → ℝ) (hv : ∀ k, v k ∉ convexHull ℝ (v '' {k}ᶜ)) (κ : ι → Type) [∀ k, Fintype (κ k)]
    (ρ : ∀ k, κ k → Fin n → Fin n → ℝ) (hρ : ∀ k, Decomp n (tcone v k) (ρ k)) (hmem : ∀ k c i, ρ k c i ∈ tcone v k) (M : ℕ) (l : Fin n → ℝ)
    (hl : ∀ k c i, ip l (ρ k c i) ≠ 0) :
    ∫ x in convexHull ℝ (range v), ip l x ^ M =
      (M.factorial : ℝ) / ((M + n).factorial : ℝ) * ∑ k, ip l (v k) ^ (M + n) * gf (ρ k) l := by
  classical
  obtain ⟨T, _, e, einj, hcov, hov, hdec⟩ := exists_triangulation v
  have hinj : Function.Injective v := by
    intro a b hab
    by_contra hne
    exact hv a (subset_convexHull ℝ _ ⟨b, by simpa using Ne.symm hne, hab.symm⟩)
  have hform : ∀ l : Fin n → ℝ, ∫ x in convexHull ℝ (range v), ip l x ^ M =
      (M.factorial : ℝ) / ((M + n).factorial : ℝ) * ∑ b, |(edgeMat n (v ∘ e b)).det| * hom (n + 1) M (fun j => ip l (v (e b j))) := by
    intro l
    have hus := integral_union_simplices _ (fun b => v ∘ e b) hcov hov (fun x => ip l x ^ M) ((ip_continuous l).pow M)
    rw [hus, Finset.mul_sum]
    apply Finset.sum_congr rfl
    intro b _
    have := integral_simplex_pow n M (v ∘ e b) l
    unfold ip
    rw [this]
    simp only [Function.comp]
    ring
  -- generic linear forms
  have hgen : ∀ l : Fin n → ℝ, (∀ k c i, ip l (ρ k c i) ≠ 0) → (∀ a b, a ≠ b → ip l (v a) ≠ ip l (v b)) →
      ∑ b, |(edgeMat n (v ∘ e b)).det| * hom (n + 1) M (fun j => ip l (v (e b j))) = ∑ k, ip l (v k) ^ (M + n) * gf (ρ k) l := by
    intro l hl hd
    have h1 : ∀ b, |(edgeMat n (v ∘ e b)).det| * hom (n + 1) M (fun j => ip l (v (e b j))) =
        ∑ j, ip l (v (e b j)) ^ (M + n) * (|(colMat n (edges (v ∘ e b) j)).det| / ∏ i, (-ip l (edges (v ∘ e b) j i))) := by
      intro b
      rw [hom_partial_fractions n M _ (fun i j h => by
        by_contra hne
        exact hd (e b i) (e b j) (fun h' => hne (einj b h')) h), Finset.mul_sum]
      apply Finset.sum_congr rfl
      intro j _
      rw [abs_det_edges]
      have : ∀ i, -ip l (edges (v ∘ e b) j i) = ip l (v (e b j)) - ip l (v (e b (j.succAbove i))) := by
        intro i; rw [edges, ip_sub]; simp only [Function.comp]; ring
      simp only [this]
      ring
    simp only [h1]
    rw [← Fintype.sum_prod_type' (f := fun b j => ip l (v (e b j)) ^ (M + n) *
      (|(colMat n (edges (v ∘ e b) j)).det| / ∏ i, (-ip l (edges (v ∘ e b) j i))))]
    rw [← Finset.sum_fiberwise (s := (Finset.univ : Finset (T × Fin (n + 1)))) (g := fun p => e p.1 p.2)]
    apply Finset.sum_congr rfl
    intro k _
    obtain ⟨η, g, hg, hη⟩ := exists_exposing v k (hv k)
    have hk1 : ∀ (p : {p : T × Fin (n + 1) // e p.1 p.2 = k}) (i : Fin n), e p.1.1 (p.1.2.succAbove i) ≠ k := by
      intro p i h
      exact Fin.succAbove_ne p.1.2 i (einj p.1.1 (h.trans p.2.symm))
    have hun := decomp_unique (hdec k (hv k)) (hρ k) η (by
      intro p i
      rw [edges, ip_sub]
      simp only [Function.comp, p.2]
      linarith [hη _ (hk1 p i)]) (fun c i => ip_tcone_neg v k η g hg hη _ (hmem k c i) (by
        intro h0; apply hl k c i; rw [h0, ip_zero])) l (by
      intro p i
      rw [edges, ip_sub]
      simp only [Function.comp, p.2]
      exact sub_ne_zero.2 (hd _ _ (hk1 p i))) (hl k)
    rw [← hun]
    unfold gf
    rw [Finset.mul_sum, Finset.sum_subtype (p := fun p : T × Fin (n + 1) => e p.1 p.2 = k) _ (by simp)]
    apply Finset.sum_congr rfl
    intro p _
    rw [p.2]
  rw [hform l]
  congr 1
  -- a direction separating the vertices
  obtain ⟨w, hw⟩ : ∃ w : Fin n → ℝ, ∀ a b, a ≠ b → ip w (v a) ≠ ip w (v b) := by
    let S : ι × ι → Submodule ℝ (Fin n → ℝ) := fun p => if p.1 = p.2 then ⊥ else
      { carrier := {w | ip w (v p.1 - v p.2) = 0}
        add_mem' := fun {a b} ha hb => by
          simp only [mem_ofPred_eq] at *; rw [ip_add_left, ha, hb, add_zero]
        zero_mem' := by simp [ip]
        smul_mem' := fun c x hx => by simp only [mem_ofPred_eq] at *; rw [ip_smul_left, hx, mul_zero] }
    by_cases hι : ∃ a b : ι, a ≠ b
    · obtain ⟨a0, b0, hab⟩ := hι
      have hsep : ∀ a b, a ≠ b → ∃ w : Fin n → ℝ, ip w (v a - v b) ≠ 0 := by
        intro a b hab
        by_contra hne
        push Not at hne
        apply hab
        apply hinj
        have h0 := hne (v a - v b)
        unfold ip at h0
        have h1 := (Finset.sum_eq_zero_iff_of_nonneg (fun i _ => mul_self_nonneg _)).1 h0
        funext i
        have := mul_self_eq_zero.1 (h1 i (Finset.mem_univ i))
        rw [Pi.sub_apply] at this
        linarith
      have htop : (⊤ : Submodule ℝ (Fin n → ℝ)) ∉ Finset.univ.image S := by
        intro hmem
        obtain ⟨p, _, hp⟩ := Finset.mem_image.1 hmem
        simp only [S] at hp
        split_ifs at hp with h
        · obtain ⟨w, hw⟩ := hsep a0 b0 hab
          have : w ∈ (⊤ : Submodule ℝ (Fin n → ℝ)) := trivial
          rw [← hp, Submodule.mem_bot] at this
          apply hw; rw [this]; simp [ip]
        · obtain ⟨w, hw⟩ := hsep p.1 p.2 h
          have : w ∈ (⊤ : Submodule ℝ (Fin n → ℝ)) := trivial
          rw [← hp] at this
          exact hw this
      obtain ⟨w, hw⟩ := (Set.ne_univ_iff_exists_notMem _).1 (Subspace.biUnion_ne_univ_of_top_notMem htop)
      refine ⟨w, fun a b hab h => hw ?_⟩
      simp only [mem_iUnion]
      refine ⟨S (a, b), Finset.mem_image.2 ⟨_, Finset.mem_univ _, rfl⟩, ?_⟩
      simp only [S, hab, if_false]
      show ip w (v a - v b) = 0
      rw [ip_sub, h, sub_self]
    · push Not at hι
      exact ⟨0, fun a b hab => absurd (hι a b) hab⟩
  -- continuity along `l + t w`
  have hev : ∀ (a b : ℝ), (a ≠ 0 ∨ b ≠ 0) → ∀ᶠ t in 𝓝[≠] (0:ℝ), a + t * b ≠ 0 := by
    intro a b hab
    by_cases hb : b = 0
    · simp only [hb, mul_zero, add_zero]
      exact Eventually.of_forall fun _ => hab.resolve_right (by simp [hb])
    · by_cases ha : a = 0
      · filter_upwards [self_mem_nhdsWithin] with t ht
        rw [ha, zero_add]; exact mul_ne_zero ht hb
      · have : ContinuousAt (fun t : ℝ => a + t * b) 0 := by fun_prop
        exact (this.eventually_ne (by simpa using ha)).filter_mono nhdsWithin_le_nhds
  have heq : ∀ᶠ t in 𝓝[≠] (0:ℝ), ∑ b, |(edgeMat n (v ∘ e b)).det| * hom (n + 1) M (fun j => ip (l + t • w) (v (e b j))) =
      ∑ k, ip (l + t • w) (v k) ^ (M + n) * gf (ρ k) (l + t • w) := by
    have h1 : ∀ᶠ t in 𝓝[≠] (0:ℝ), ∀ k c i, ip (l + t • w) (ρ k c i) ≠ 0 := by
      simp only [eventually_all]
      intro k c i
      filter_upwards [hev (ip l (ρ k c i)) (ip w (ρ k c i)) (Or.inl (hl k c i))] with t ht
      rwa [ip_add_left, ip_smul_left]
    have h2 : ∀ᶠ t in 𝓝[≠] (0:ℝ), ∀ a b, a ≠ b → ip (l + t • w) (v a) ≠ ip (l + t • w) (v b) := by
      simp only [eventually_all]
      intro a b hab
      filter_upwards [hev (ip l (v a) - ip l (v b)) (ip w (v a) - ip w (v b)) (Or.inr (sub_ne_zero.2 (hw a b hab)))] with t ht
      rw [ip_add_left, ip_smul_left, ip_add_left, ip_smul_left]
      intro h; apply ht; linarith
    filter_upwards [h1, h2] with t a b
    exact hgen _ a b
  have hip : ∀ y : Fin n → ℝ, Continuous fun t : ℝ => ip (l + t • w) y := by
    intro y
    simp only [ip_add_left, ip_smul_left]
    fun_prop
  have cont1 : ContinuousAt (fun t : ℝ => ∑ b, |(edgeMat n (v ∘ e b)).det| * hom (n + 1) M (fun j => ip (l + t • w) (v (e b j)))) 0 := by
    apply Continuous.continuousAt
    refine continuous_finsetSum _ fun b _ => continuous_const.mul ((hom_continuous (n + 1) M).comp (continuous_pi fun j => hip _))
  have cont2 : ContinuousAt (fun t : ℝ => ∑ k, ip (l + t • w) (v k) ^ (M + n) * gf (ρ k) (l + t • w)) 0 := by
    unfold gf
    refine tendsto_finsetSum _ fun k _ => ((hip (v k)).continuousAt.pow (M + n)).mul (tendsto_finsetSum _ fun c _ => ?_)
    apply ContinuousAt.div continuousAt_const
    · exact (continuous_finsetProd _ fun i _ => (hip _).neg).continuousAt
    · rw [zero_smul, add_zero]
      exact Finset.prod_ne_zero_iff.2 fun i _ => neg_ne_zero.2 (hl k c i)
  have t1 := cont1.tendsto.mono_left (nhdsWithin_le_nhds (s := {0}ᶜ))
  have t2 := cont2.tendsto.mono_left (nhdsWithin_le_nhds (s := {0}ᶜ))
  have := tendsto_nhds_unique (t1.congr' heq) t2
  simpa using this

end Verif.Measure
