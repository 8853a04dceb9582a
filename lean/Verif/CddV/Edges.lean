import Verif.CddV.Spec
import Verif.Ti2.Exists
import Verif.Ti2.Dual

/-!
# The tangent cone at a vertex of a polytope is generated by the edges
-/

namespace Verif.CddV

open Verif.Barvinok Verif.Barvinok.Spec Verif.Brion Verif.Ti2 Filter Topology

variable {n N : ℕ}

theorem dot_real (f : Vec n) (v : Fin n → ℚ) : dot f (real v) = ((∑ k, (f k : ℚ) * v k : ℚ) : ℝ) := dot_cast f v

theorem dot_sub' (f : Vec n) (x y : Fin n → ℝ) : dot f (x - y) = dot f x - dot f y := by
  rw [show x - y = x + (-1 : ℝ) • y by rw [neg_one_smul, sub_eq_add_neg], dot_add', dot_smul']
  ring

theorem active_iff (a : Fin N → Vec n) (b : Fin N → ℚ) (v : Fin n → ℚ) (i : Fin N) : i ∈ active a b v ↔ dot (a i) (real v) = (b i : ℝ) := by
  rw [dot_real]
  exact Rat.cast_inj.symm

variable {a : Fin N → Vec n} {b : Fin N → ℚ}

/-- A little way along a direction of the tangent cone stays in the polyhedron. -/
theorem small_step {v : Fin n → ℚ} (hv : real v ∈ Poly a fun i => (b i : ℝ)) {y : Fin n → ℝ} (hy : y ∈ tangent a b v) :
    ∀ᶠ ε in 𝓝[>] (0 : ℝ), real v + ε • y ∈ Poly a fun i => (b i : ℝ) := by
  have : ∀ᶠ ε in 𝓝[>] (0 : ℝ), ∀ i, dot (a i) (real v + ε • y) ≤ (b i : ℝ) := by
    rw [eventually_all]
    intro i
    by_cases h : dot (a i) (real v) = (b i : ℝ)
    · filter_upwards [self_mem_nhdsWithin] with ε hε
      rw [dot_add', dot_smul', h]
      have := hy i ((active_iff a b v i).2 h)
      have hε' : (0 : ℝ) < ε := hε
      nlinarith
    · have h' : (b i : ℝ) - dot (a i) (real v) ≠ 0 := sub_ne_zero.2 (Ne.symm h)
      filter_upwards [ev_pos_iff ((b i : ℝ) - dot (a i) (real v)) (-dot (a i) y) h'] with ε hε
      have := hε.1.2 (by have := lt_of_le_of_ne (hv i) h; linarith)
      rw [dot_add', dot_smul']
      linarith
  exact this

theorem sub_mem_tangent {v : Fin n → ℚ} {x : Fin n → ℝ} (hx : x ∈ Poly a fun i => (b i : ℝ)) : x - real v ∈ tangent a b v := by
  intro i hi
  rw [dot_sub', (active_iff a b v i).1 hi]
  have := hx i
  linarith

theorem add_mem_tangent {v : Fin n → ℚ} {x y : Fin n → ℝ} (hx : x ∈ tangent a b v) (hy : y ∈ tangent a b v) : x + y ∈ tangent a b v := by
  intro i hi
  rw [dot_add']
  have := hx i hi; have := hy i hi
  linarith

theorem smul_mem_tangent {v : Fin n → ℚ} {x : Fin n → ℝ} {c : ℝ} (hc : 0 ≤ c) (hx : x ∈ tangent a b v) : c • x ∈ tangent a b v := by
  intro i hi
  rw [dot_smul']
  have := hx i hi
  nlinarith

theorem lin_tangent {v : Fin n → ℚ} (hv : real v ∈ (Poly a fun i => (b i : ℝ)).extremePoints ℝ) {y : Fin n → ℝ} (h : y ∈ Lineality (tangent a b v)) : y = 0 := by
  refine active_of_extreme a _ _ hv y fun i hi => ?_
  have h1 := h.1 i ((active_iff a b v i).2 hi)
  have h2 := h.2 i ((active_iff a b v i).2 hi)
  rw [show -y = (-1 : ℝ) • y by simp, dot_smul'] at h2
  linarith

theorem zero_lin_tangent (v : Fin n → ℚ) : (0 : Fin n → ℝ) ∈ Lineality (tangent a b v) := by
  have : (0 : Fin n → ℝ) ∈ tangent a b v := by
    intro i _
    simp [dot]
  exact ⟨this, by simpa using this⟩

/-- Along an edge goes an extreme ray of the tangent cone. -/
theorem edge_extreme {v w : Fin n → ℚ} (hv : real v ∈ (Poly a fun i => (b i : ℝ)).extremePoints ℝ)
    (he : Edge (Poly a fun i => (b i : ℝ)) v w) : IsExtremeRay (tangent a b v) (real w - real v) := by
  obtain ⟨hne, hseg⟩ := he
  have hw : real w ∈ Poly a fun i => (b i : ℝ) := hseg.1 (right_mem_segment ℝ _ _)
  have hne' : real w - real v ≠ 0 := by
    intro h
    refine hne (funext fun k => ?_)
    have := congrFun h k
    simp only [real, Pi.sub_apply, Pi.zero_apply, sub_eq_zero] at this
    exact_mod_cast this.symm
  have hmem : real w - real v ∈ tangent a b v := sub_mem_tangent hw
  refine ⟨hmem, fun h => hne' (lin_tangent hv ⟨hmem, h⟩), fun u hu u' hu' hs => ?_⟩
  have hlt : ∀ᶠ ε in 𝓝[>] (0 : ℝ), ε < 2 := by
    filter_upwards [Ioo_mem_nhdsGT (show (0 : ℝ) < 2 by norm_num)] with ε hε using hε.2
  obtain ⟨ε, ⟨⟨h1, h2⟩, h3⟩, h4⟩ := ((((small_step hv.1 hu).and (small_step hv.1 hu')).and hlt).and self_mem_nhdsWithin).exists
  have hε : (0 : ℝ) < ε := h4
  have hx : real v + (ε / 2) • (real w - real v) ∈ segment ℝ (real v) (real w) := by
    refine ⟨1 - ε / 2, ε / 2, by linarith, by linarith, by ring, ?_⟩
    funext k
    simp
    ring
  have ho : real v + (ε / 2) • (real w - real v) ∈ openSegment ℝ (real v + ε • u) (real v + ε • u') := by
    refine ⟨1 / 2, 1 / 2, by norm_num, by norm_num, by norm_num, ?_⟩
    rw [← hs]
    funext k
    simp
    ring
  obtain ⟨s, t, hs', ht, hst, e⟩ := hseg.2 h1 h2 hx ho
  refine ⟨t / ε, by positivity, ?_⟩
  have : u - (t / ε) • (real w - real v) = 0 := by
    funext k
    have := congrFun e k
    simp only [Pi.add_apply, Pi.smul_apply, smul_eq_mul, Pi.sub_apply, Pi.zero_apply] at this ⊢
    have hs1 : s = 1 - t := by linarith
    rw [hs1] at this
    field_simp
    linarith
  rw [this]
  exact zero_lin_tangent v

/-- In a bounded polyhedron, along an extreme ray of the tangent cone at a vertex there is an edge. -/
theorem extreme_edge {v : Fin n → ℚ} (hv : real v ∈ (Poly a fun i => (b i : ℝ)).extremePoints ℝ)
    (hb : ∀ y : Fin n → ℝ, (∀ i, dot (a i) y ≤ 0) → y = 0) {e : Fin n → ℝ} (he : IsExtremeRay (tangent a b v) e) :
    ∃ x ∈ (Poly a fun i => (b i : ℝ)).extremePoints ℝ, x ≠ real v ∧ IsExtreme ℝ (Poly a fun i => (b i : ℝ)) (segment ℝ (real v) x) ∧
      ∃ t : ℝ, 0 < t ∧ x - real v = t • e := by
  classical
  obtain ⟨heK, heN, hext⟩ := he
  have he0 : e ≠ 0 := by
    rintro rfl
    exact heN (by simpa using heK)
  -- directions orthogonal to the constraints tight along the ray
  have hker : ∀ u : Fin n → ℝ, (∀ i ∈ active a b v, dot (a i) e = 0 → dot (a i) u = 0) → ∃ c : ℝ, u = c • e := by
    intro u hu
    have hsm : ∀ u : Fin n → ℝ, (∀ i ∈ active a b v, dot (a i) e = 0 → dot (a i) u = 0) → ∀ᶠ ε in 𝓝[>] (0 : ℝ), e + ε • u ∈ tangent a b v := by
      intro u hu
      have : ∀ᶠ ε in 𝓝[>] (0 : ℝ), ∀ i, i ∈ active a b v → dot (a i) (e + ε • u) ≤ 0 := by
        rw [eventually_all]
        intro i
        by_cases hi : i ∈ active a b v
        · by_cases h : dot (a i) e = 0
          · refine Eventually.of_forall fun ε _ => ?_
            rw [dot_add', dot_smul', h, hu i hi h]
            simp
          · have h' : 0 - dot (a i) e ≠ 0 := by simpa using h
            filter_upwards [ev_pos_iff (0 - dot (a i) e) (-dot (a i) u) h'] with ε hε _
            have := hε.1.2 (by have := lt_of_le_of_ne (heK i hi) h; linarith)
            rw [dot_add', dot_smul']
            linarith
        · exact Eventually.of_forall fun ε h => absurd h hi
      exact this
    obtain ⟨ε, ⟨h1, h2⟩, h3⟩ := (((hsm u hu).and (hsm (-u) fun i hi h => by
      rw [show -u = (-1 : ℝ) • u by simp, dot_smul', hu i hi h, mul_zero])).and self_mem_nhdsWithin).exists
    have hε : (0 : ℝ) < ε := h3
    obtain ⟨c, -, hc⟩ := hext ((1 / 2 : ℝ) • (e + ε • u)) (smul_mem_tangent (by norm_num) h1) ((1 / 2 : ℝ) • (e + ε • -u))
      (smul_mem_tangent (by norm_num) h2) (by funext k; simp; ring)
    have h0 := lin_tangent hv hc
    refine ⟨(2 * c - 1) / ε, ?_⟩
    funext k
    have := congrFun h0 k
    simp only [Pi.sub_apply, Pi.smul_apply, smul_eq_mul, Pi.add_apply, Pi.zero_apply] at this ⊢
    field_simp
    linarith
  -- some inequality bounds the ray
  have hex : ∃ i, 0 < dot (a i) e := by
    by_contra h
    push Not at h
    exact he0 (hb e h)
  let T : Finset (Fin N) := Finset.univ.filter fun i => 0 < dot (a i) e
  have hT : T.Nonempty := by
    obtain ⟨i, hi⟩ := hex
    exact ⟨i, Finset.mem_filter.2 ⟨Finset.mem_univ _, hi⟩⟩
  obtain ⟨j, hj, hmin⟩ := Finset.exists_min_image T (fun i => ((b i : ℝ) - dot (a i) (real v)) / dot (a i) e) hT
  have hj0 : 0 < dot (a j) e := (Finset.mem_filter.1 hj).2
  have hjn : j ∉ active a b v := fun h => absurd (heK j h) (not_le.2 hj0)
  have hjlt : dot (a j) (real v) < (b j : ℝ) := lt_of_le_of_ne (hv.1 j) fun h => hjn ((active_iff a b v j).2 h)
  obtain ⟨t, ht⟩ : ∃ t : ℝ, ((b j : ℝ) - dot (a j) (real v)) / dot (a j) e = t := ⟨_, rfl⟩
  have ht0 : 0 < t := by
    rw [← ht]
    exact div_pos (by linarith) hj0
  have hstep : ∀ c : ℝ, 0 ≤ c → c ≤ t → real v + c • e ∈ Poly a fun i => (b i : ℝ) := by
    intro c hc0 hc i
    rw [dot_add', dot_smul']
    by_cases hi : 0 < dot (a i) e
    · have := hmin i (Finset.mem_filter.2 ⟨Finset.mem_univ _, hi⟩)
      rw [ht, le_div_iff₀ hi] at this
      nlinarith
    · push Not at hi
      have := hv.1 i
      nlinarith
  have hline : ∀ x ∈ Poly a (fun i => (b i : ℝ)), (∀ i ∈ active a b v, dot (a i) e = 0 → dot (a i) x = (b i : ℝ)) →
      ∃ c : ℝ, 0 ≤ c ∧ c ≤ t ∧ x = real v + c • e := by
    intro x hx hact
    obtain ⟨c, hc⟩ := hker (x - real v) fun i hi h => by
      rw [dot_sub', hact i hi h, (active_iff a b v i).1 hi, sub_self]
    have hxe : x = real v + c • e := by rw [← hc]; simp
    refine ⟨c, ?_, ?_, hxe⟩
    · by_contra hneg
      push Not at hneg
      have h1 : (-c)⁻¹ • (x - real v) ∈ tangent a b v := smul_mem_tangent (by rw [inv_nonneg]; linarith) (sub_mem_tangent hx)
      rw [hc, smul_smul, show (-c)⁻¹ * c = -1 by rw [inv_neg, neg_mul, inv_mul_cancel₀ hneg.ne]] at h1
      exact heN (by simpa using h1)
    · have := hx j
      rw [hxe, dot_add', dot_smul'] at this
      rw [← ht, le_div_iff₀ hj0]
      linarith
  have hw : real v + t • e ∈ Poly a fun i => (b i : ℝ) := hstep t ht0.le le_rfl
  have hwj : dot (a j) (real v + t • e) = (b j : ℝ) := by
    rw [dot_add', dot_smul', ← ht]
    field_simp
    ring
  refine ⟨real v + t • e, extreme_of_active a _ _ hw fun l hl => ?_, ?_, ⟨?_, ?_⟩, t, ht0, by simp⟩
  · obtain ⟨c, hc⟩ := hker l fun i hi h => hl i (by rw [dot_add', dot_smul', h, mul_zero, add_zero]; exact (active_iff a b v i).1 hi)
    have := hl j hwj
    rw [hc, dot_smul'] at this
    rcases mul_eq_zero.1 this with h | h
    · rw [hc, h, zero_smul]
    · exact absurd h hj0.ne'
  · intro h
    have h' : t • e = 0 := by simpa using h
    rcases smul_eq_zero.1 h' with h | h
    · exact ht0.ne' h
    · exact he0 h
  · rintro x ⟨s, r, hs, hr, hsr, rfl⟩
    have : s • real v + r • (real v + t • e) = real v + (r * t) • e := by
      funext k
      simp only [Pi.add_apply, Pi.smul_apply, smul_eq_mul]
      rw [show s = 1 - r by linarith]
      ring
    rw [this]
    exact hstep _ (by positivity) (by nlinarith)
  · intro x₁ hx₁ x₂ hx₂ x hx ho
    have htight : ∀ i ∈ active a b v, dot (a i) e = 0 → dot (a i) x = (b i : ℝ) := by
      intro i hi h
      obtain ⟨s, r, hs, hr, hsr, rfl⟩ := hx
      rw [dot_add', dot_smul', dot_smul', dot_add', dot_smul', h, (active_iff a b v i).1 hi]
      rw [show s = 1 - r by linarith]
      ring
    have h1 : ∀ i ∈ active a b v, dot (a i) e = 0 → dot (a i) x₁ = (b i : ℝ) := by
      intro i hi h
      have h0 := htight i hi h
      obtain ⟨s, r, hs, hr, hsr, rfl⟩ := ho
      rw [dot_add', dot_smul', dot_smul'] at h0
      have ha := hx₁ i
      have hb' := hx₂ i
      refine le_antisymm ha ?_
      by_contra hlt
      push Not at hlt
      have : s * dot (a i) x₁ < s * (b i : ℝ) := by nlinarith
      have : r * dot (a i) x₂ ≤ r * (b i : ℝ) := by nlinarith
      have : s * (b i : ℝ) + r * (b i : ℝ) = b i := by rw [← add_mul, hsr, one_mul]
      linarith
    obtain ⟨c, hc0, hct, rfl⟩ := hline x₁ hx₁ h1
    refine ⟨1 - c / t, c / t, ?_, by positivity, by ring, ?_⟩
    · rw [sub_nonneg, div_le_one ht0]; exact hct
    · funext k
      simp only [Pi.add_apply, Pi.smul_apply, smul_eq_mul]
      field_simp
      ring

end Verif.CddV
