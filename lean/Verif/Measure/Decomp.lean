import Verif.Measure.Cone

/-! Decompositions of a pointed cone into simplicial cones all have the same generating function. -/

namespace Verif.Measure

open MeasureTheory Set

/-- `K` is, up to null sets, the union of the simplicial cones over `r k`, which overlap in null sets only -/
structure Decomp (n : ℕ) (K : Set (Fin n → ℝ)) {κ : Type} (r : κ → Fin n → Fin n → ℝ) : Prop where
  cover : K =ᵐ[volume] ⋃ k, scone n (r k)
  overlap : Pairwise fun k k' => volume (scone n (r k) ∩ scone n (r k')) = 0

/-- the generating function of a family of simplicial cones at `l` -/
noncomputable def gf {n : ℕ} {κ : Type} [Fintype κ] (r : κ → Fin n → Fin n → ℝ) (l : Fin n → ℝ) : ℝ :=
  ∑ k, |(colMat n (r k)).det| / ∏ i, (-ip l (r k i))

theorem integral_decomp {n : ℕ} {K : Set (Fin n → ℝ)} {κ : Type} [Fintype κ] {r : κ → Fin n → Fin n → ℝ} (h : Decomp n K r)
    (l : Fin n → ℝ) (hl : ∀ k i, ip l (r k i) < 0) : ∫ x in K, Real.exp (ip l x) = gf r l := by
  rw [setIntegral_congr_set h.cover, integral_iUnion_ae (fun k => scone_measurable n (r k)) h.overlap, tsum_fintype]
  · exact Finset.sum_congr rfl fun k _ => (integral_scone n (r k) l (hl k)).2
  · rw [integrableOn_finite_iUnion]
    exact fun k => (integral_scone n (r k) l (hl k)).1

/-- a sum of simple fractions along a line that vanishes eventually vanishes at `0` -/
theorem ratzero {n : ℕ} {κ : Type} [Fintype κ] (d : κ → ℝ) (α β : κ → Fin n → ℝ) (s0 : ℝ)
    (h : ∀ s > s0, ∑ k, d k / ∏ j, (α k j + s * β k j) = 0) (hne : ∀ s > s0, ∀ k j, α k j + s * β k j ≠ 0) (hα : ∀ k j, α k j ≠ 0) :
    ∑ k, d k / ∏ j, α k j = 0 := by
  classical
  let D : κ → Polynomial ℝ := fun k => ∏ j, (Polynomial.C (α k j) + Polynomial.X * Polynomial.C (β k j))
  let Q : Polynomial ℝ := ∑ k, Polynomial.C (d k) * ∏ k' ∈ Finset.univ.erase k, D k'
  have hD : ∀ k s, (D k).eval s = ∏ j, (α k j + s * β k j) := by
    intro k s
    simp only [D, Polynomial.eval_prod, Polynomial.eval_add, Polynomial.eval_C, Polynomial.eval_mul, Polynomial.eval_X]
  have hQ : ∀ s, (∀ k, (D k).eval s ≠ 0) → Q.eval s = (∏ k, (D k).eval s) * ∑ k, d k / (D k).eval s := by
    intro s hs
    simp only [Q, Polynomial.eval_finsetSum, Polynomial.eval_mul, Polynomial.eval_C, Polynomial.eval_prod]
    rw [Finset.mul_sum]
    apply Finset.sum_congr rfl
    intro k _
    rw [← Finset.mul_prod_erase Finset.univ (fun k => (D k).eval s) (Finset.mem_univ k)]
    field_simp [hs k]
  have hzero : Q = 0 := by
    apply Polynomial.eq_zero_of_infinite_isRoot
    apply Set.Infinite.mono (s := Ioi s0) _ (Ioi_infinite s0)
    intro s hs
    show Q.eval s = 0
    rw [hQ s (fun k => by rw [hD]; exact Finset.prod_ne_zero_iff.2 fun j _ => hne s hs k j)]
    simp only [hD, h s hs, mul_zero]
  have h0 : ∀ k, (D k).eval 0 ≠ 0 := fun k => by
    rw [hD]; simp only [zero_mul, add_zero]; exact Finset.prod_ne_zero_iff.2 fun j _ => hα k j
  have := hQ 0 h0
  rw [hzero, Polynomial.eval_zero] at this
  have h1 : ∏ k, (D k).eval 0 ≠ 0 := Finset.prod_ne_zero_iff.2 fun k _ => h0 k
  have h2 := (mul_eq_zero.1 this.symm).resolve_left h1
  simpa [hD] using h2

/-- **Uniqueness.** The generating functions of two decompositions of the same pointed cone agree wherever both are defined. -/
theorem decomp_unique {n : ℕ} {K : Set (Fin n → ℝ)} {κ κ' : Type} [Fintype κ] [Fintype κ'] {r : κ → Fin n → Fin n → ℝ}
    {r' : κ' → Fin n → Fin n → ℝ} (h : Decomp n K r) (h' : Decomp n K r') (e : Fin n → ℝ) (he : ∀ k i, ip e (r k i) < 0)
    (he' : ∀ k i, ip e (r' k i) < 0) (l : Fin n → ℝ) (hl : ∀ k i, ip l (r k i) ≠ 0) (hl' : ∀ k i, ip l (r' k i) ≠ 0) :
    gf r l = gf r' l := by
  -- far out along `e` both converge
  obtain ⟨s0, hs0⟩ : ∃ s0 : ℝ, ∀ s > s0, (∀ k i, ip (l + s • e) (r k i) < 0) ∧ ∀ k i, ip (l + s • e) (r' k i) < 0 := by
    have hone : ∀ (κ : Type) [Fintype κ] (r : κ → Fin n → Fin n → ℝ), (∀ k i, ip e (r k i) < 0) →
        ∃ s0 : ℝ, ∀ s > s0, ∀ k i, ip (l + s • e) (r k i) < 0 := by
      intro κ _ r he
      have : ∀ p : κ × Fin n, ∃ s0 : ℝ, ∀ s > s0, ip (l + s • e) (r p.1 p.2) < 0 := by
        intro p
        refine ⟨ip l (r p.1 p.2) / -ip e (r p.1 p.2), fun s hs => ?_⟩
        have hp : 0 < -ip e (r p.1 p.2) := by linarith [he p.1 p.2]
        rw [gt_iff_lt, div_lt_iff₀ hp] at hs
        rw [ip_add_left, ip_smul_left]
        linarith
      choose f hf using this
      obtain ⟨B, hB⟩ := (Set.finite_range f).bddAbove
      exact ⟨B, fun s hs k i => hf (k, i) s (lt_of_le_of_lt (hB ⟨(k, i), rfl⟩) hs)⟩
    obtain ⟨a, ha⟩ := hone κ r he
    obtain ⟨b, hb⟩ := hone κ' r' he'
    exact ⟨max a b, fun s hs => ⟨ha s (lt_of_le_of_lt (le_max_left _ _) hs), hb s (lt_of_le_of_lt (le_max_right _ _) hs)⟩⟩
  have hmain := ratzero (κ := κ ⊕ κ') (n := n) (Sum.elim (fun k => |(colMat n (r k)).det|) (fun k => -|(colMat n (r' k)).det|))
    (Sum.elim (fun k i => -ip l (r k i)) (fun k i => -ip l (r' k i))) (Sum.elim (fun k i => -ip e (r k i)) (fun k i => -ip e (r' k i))) s0
    (by
      intro s hs
      rw [Fintype.sum_sum_type]
      simp only [Sum.elim_inl, Sum.elim_inr]
      have h1 := integral_decomp h (l + s • e) (hs0 s hs).1
      have h2 := integral_decomp h' (l + s • e) (hs0 s hs).2
      rw [h1] at h2
      unfold gf at h2
      simp only [ip_add_left, ip_smul_left, neg_add] at h2
      simp only [mul_neg, neg_div, Finset.sum_neg_distrib]
      rw [h2]; ring)
    (by
      rintro s hs (k | k) i
      · simp only [Sum.elim_inl]
        have := (hs0 s hs).1 k i
        rw [ip_add_left, ip_smul_left] at this
        intro h0; linarith
      · simp only [Sum.elim_inr]
        have := (hs0 s hs).2 k i
        rw [ip_add_left, ip_smul_left] at this
        intro h0; linarith)
    (by
      rintro (k | k) i
      · simpa using hl k i
      · simpa using hl' k i)
  rw [Fintype.sum_sum_type] at hmain
  simp only [Sum.elim_inl, Sum.elim_inr, neg_div, Finset.sum_neg_distrib] at hmain
  unfold gf
  linarith

end Verif.Measure
