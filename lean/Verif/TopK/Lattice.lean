import Verif.TopK.Subst

/-!
# The cone identity

A signed decomposition of the orthant, written in a basis `B` of the lattice `{y : f ∣ a · y}`, into unimodular cones turns the sum over the points of the box
`[0,f)` with `a · y ≡ t` into a sum over the cones.
-/

namespace Verif.TopK

open PowerSeries
open Verif.ExpSubst (Lat LP mono act emb negligible)
open Verif.Barvinok (Mat Vec rel lineFn)
open Verif.Barvinok.Spec

variable {K : Type*} [Field K] [CharZero K] {n : ℕ}

/-- The points of the box `[0,f)ⁿ` with `a · y ≡ t` modulo `f`. -/
noncomputable def boxPts (a : Fin n → ℤ) (f : ℕ) (t : ℤ) : Finset (Fin n → ℤ) :=
  (Fintype.piFinset fun _ => Finset.Ico (0 : ℤ) f).filter fun y => (f : ℤ) ∣ (∑ i, a i * y i) - t

theorem mem_boxPts (a : Fin n → ℤ) (f : ℕ) (t : ℤ) (y : Fin n → ℤ) :
    y ∈ boxPts a f t ↔ (∀ j, 0 ≤ y j ∧ y j < f) ∧ (f : ℤ) ∣ (∑ i, a i * y i) - t := by
  simp [boxPts, Fintype.mem_piFinset]

theorem mulVec_inj (B : Mat n) (hdet : B.det ≠ 0) (z z' : Fin n → ℤ) (h : B.mulVec z = B.mulVec z') : z = z' := by
  have := congrArg (B.adjugate.mulVec) h
  rw [Matrix.mulVec_mulVec, Matrix.mulVec_mulVec, Matrix.adjugate_mul, Matrix.smul_mulVec, Matrix.smul_mulVec, Matrix.one_mulVec,
    Matrix.one_mulVec] at this
  funext k
  have := congrFun this k
  simp only [Pi.smul_apply, smul_eq_mul] at this
  exact mul_left_cancel₀ hdet this

theorem mulVec_injQ (B : Mat n) (hdet : B.det ≠ 0) (z z' : Fin n → ℚ) (h : ∀ i, ∑ k, (B i k : ℚ) * z k = ∑ k, (B i k : ℚ) * z' k) : z = z' := by
  have hd : ∀ l k, ∑ i, (B.adjugate l i : ℚ) * (B i k : ℚ) = if l = k then (B.det : ℚ) else 0 := by
    intro l k
    have := congrFun (congrFun (Matrix.adjugate_mul B) l) k
    rw [Matrix.mul_apply, Matrix.smul_apply, Matrix.one_apply] at this
    simp only [smul_eq_mul, mul_ite, mul_one, mul_zero] at this
    exact_mod_cast this
  have hq : (B.det : ℚ) ≠ 0 := by exact_mod_cast hdet
  have e : ∀ (x : Fin n → ℚ) l, ∑ i, (B.adjugate l i : ℚ) * ∑ k, (B i k : ℚ) * x k = (B.det : ℚ) * x l := by
    intro x l
    simp only [Finset.mul_sum]
    rw [Finset.sum_comm]
    simp only [← mul_assoc, ← Finset.sum_mul, hd]
    simp
  funext l
  have h1 := e z l
  rw [Finset.sum_congr rfl fun i _ => by rw [h i], e z' l] at h1
  exact (mul_left_cancel₀ hq h1).symm

/-- The exponents `⟨ξ, B gᵢ⟩`. -/
noncomputable def eta (ξ : Fin n → K) (B G : Mat n) (i : Fin n) : K := ∑ j, ξ j * (((B.mulVec (G i)) j : ℤ) : K)

theorem smul_eq_C (z : ℤ) (S : K⟦X⟧) : (z : ℚ) • S = C (z : K) * S := by
  rw [Algebra.smul_def]
  congr 1
  rw [map_intCast, map_intCast]

theorem cone_identity {ι : Type*} [Fintype ι] [DecidableEq ι] (a : Fin n → ℤ) (f : ℕ) (hf : 0 < f) (B : Mat n) (s : Fin n → ℤ)
    (hdet : B.det ≠ 0) (hB : ∀ w : Fin n → ℤ, (f : ℤ) ∣ ∑ i, a i * w i ↔ ∃ z, B.mulVec z = w) (hs : (f : ℤ) ∣ (∑ i, a i * s i) - 1) (t : ℤ)
    (eps : ι → ℤ) (G : ι → Mat n) (hG : ∀ u, IsUnit (G u).det) (c : ι → Fin n → ℚ)
    (hc : ∀ u k, ∑ i, c u i * (((B.mulVec (G u i)) k : ℤ) : ℚ) = s k) (gl : (Fin n → ℝ) → ℤ) (hgl : gl ∈ lineFn n)
    (hid : ∀ y, ∑ u, eps u * ind (cone (G u)) y = ind {y | ∀ i, 0 ≤ ∑ k, (B i k : ℝ) * y k} y + gl y)
    (ξ : Fin n → K) (hξ : ∀ i, ξ i ≠ 0) (hη : ∀ u i, eta ξ B (G u) i ≠ 0) :
    (∑ y ∈ boxPts a f t, ex (∑ j, ξ j * ((y j : ℤ) : K))) * ∏ i, pole 1 ((f : K) * ξ i) =
      ∑ u, C ((eps u : ℤ) : K) * (ex (∑ i, ((Int.fract ((t : ℚ) * c u i) : ℚ) : K) * eta ξ B (G u) i) * ∏ i, pole 1 (eta ξ B (G u) i)) := by
  classical
  have hlin : ∀ z : Lat n, ∑ k, (∑ j, ξ j * ((B j k : ℤ) : K)) * ((z k : ℤ) : K) = ∑ j, ξ j * (((B.mulVec z) j : ℤ) : K) := by
    intro z
    simp only [Finset.sum_mul, Matrix.mulVec, dotProduct]
    rw [Finset.sum_comm]
    refine Finset.sum_congr rfl fun j _ => ?_
    push_cast
    rw [Finset.mul_sum]
    exact Finset.sum_congr rfl fun k _ => by ring
  -- the lattice
  have hr : ∀ i, ∃ z, B.mulVec z = Pi.single i (f : ℤ) := by
    intro i
    rw [← hB]
    simp only [Pi.single_apply, mul_ite, mul_zero]
    rw [Finset.sum_ite_eq']
    simp
  choose r hr using hr
  have hzof : ∀ y ∈ boxPts a f t, ∃ z, t • s + B.mulVec z = y := by
    intro y hy
    have h2 := ((mem_boxPts a f t y).1 hy).2
    obtain ⟨z, hz⟩ := (hB (y - t • s)).1 (by
      have : ∑ i, a i * (y - t • s) i = (∑ i, a i * y i - t) - t * (∑ i, a i * s i - 1) := by
        rw [mul_sub, Finset.mul_sum, mul_one]
        have : ∀ i, a i * (y - t • s) i = a i * y i - t * (a i * s i) := fun i => by
          simp only [Pi.sub_apply, Pi.smul_apply, smul_eq_mul]; ring
        simp only [this, Finset.sum_sub_distrib]
        ring
      rw [this]
      exact dvd_sub h2 (Dvd.dvd.mul_left hs t))
    exact ⟨z, by rw [hz]; simp⟩
  have hP : ∀ y, y ∈ boxPts a f t ↔ (∀ j, 0 ≤ y j ∧ y j < f) ∧ ∃ z, t • s + B.mulVec z = y := by
    intro y
    constructor
    · intro hy
      exact ⟨((mem_boxPts a f t y).1 hy).1, hzof y hy⟩
    · rintro ⟨h1, z, rfl⟩
      rw [mem_boxPts]
      refine ⟨h1, ?_⟩
      have h3 := (hB (B.mulVec z)).2 ⟨z, rfl⟩
      have : ∑ i, a i * (t • s + B.mulVec z) i - t = t * (∑ i, a i * s i - 1) + ∑ i, a i * B.mulVec z i := by
        rw [mul_sub, Finset.mul_sum, mul_one]
        have : ∀ i, a i * (t • s + B.mulVec z) i = t * (a i * s i) + a i * B.mulVec z i := fun i => by
          simp only [Pi.add_apply, Pi.smul_apply, smul_eq_mul]; ring
        simp only [this, Finset.sum_add_distrib]
        ring
      rw [this]
      exact dvd_add (Dvd.dvd.mul_left hs t) h3
  let zof : (Fin n → ℤ) → Lat n := fun y => if h : y ∈ boxPts a f t then (hzof y h).choose else 0
  have hz : ∀ y ∈ boxPts a f t, t • s + B.mulVec (zof y) = y := by
    intro y hy
    simp only [zof, dif_pos hy]
    exact (hzof y hy).choose_spec
  have hF := act_orthant B f hf r hr (t • s) (boxPts a f t) zof (mulVec_inj B hdet) hz hP
  -- the vertex
  have hvu : ∃ vq : Fin n → ℚ, (∀ i, ∑ k, (B i k : ℚ) * vq k = s i) ∧ ∀ u k, ∑ i, c u i * (G u i k : ℚ) = vq k := by
    have hd : ∀ i k, ∑ l, (B i l : ℚ) * (B.adjugate l k : ℚ) = if i = k then (B.det : ℚ) else 0 := by
      intro l k
      have := congrFun (congrFun (Matrix.mul_adjugate B) l) k
      rw [Matrix.mul_apply, Matrix.smul_apply, Matrix.one_apply] at this
      simp only [smul_eq_mul, mul_ite, mul_one, mul_zero] at this
      exact_mod_cast this
    have hq : (B.det : ℚ) ≠ 0 := by exact_mod_cast hdet
    have h1 : ∀ i, ∑ k, (B i k : ℚ) * ((∑ l, (B.adjugate k l : ℚ) * s l) / B.det) = s i := by
      intro i
      have e : ∑ k, (B i k : ℚ) * ((∑ l, (B.adjugate k l : ℚ) * s l) / B.det) = (∑ k, (B i k : ℚ) * ∑ l, (B.adjugate k l : ℚ) * s l) / B.det := by
        rw [Finset.sum_div]
        exact Finset.sum_congr rfl fun k _ => by ring
      rw [e]
      simp only [Finset.mul_sum]
      rw [Finset.sum_comm]
      simp only [← mul_assoc, ← Finset.sum_mul, hd]
      simp only [ite_mul, zero_mul, Finset.sum_ite_eq, Finset.mem_univ, if_true]
      field_simp
    refine ⟨_, h1, fun u => ?_⟩
    intro k
    refine congrFun (mulVec_injQ B hdet (fun k => ∑ i, c u i * (G u i k : ℚ)) (fun k => (∑ l, (B.adjugate k l : ℚ) * s l) / B.det) fun i => ?_) k
    rw [h1, ← hc u i]
    simp only [Finset.mul_sum, Matrix.mulVec, dotProduct]
    rw [Finset.sum_comm]
    refine Finset.sum_congr rfl fun l _ => ?_
    push_cast
    rw [Finset.mul_sum]
    exact Finset.sum_congr rfl fun k _ => by ring
  obtain ⟨vq, hv1, hv2⟩ := hvu
  have hGi : ∀ u, ∃ Gi : Mat n, G u * Gi = 1 ∧ Gi * G u = 1 := fun u =>
    ⟨(G u)⁻¹, Matrix.mul_nonsing_inv _ (hG u), Matrix.nonsing_inv_mul _ (hG u)⟩
  choose Gi hGi1 hGi2 using hGi
  have hK := fun u => act_unimodular (G u) (Gi u) (hGi1 u) (hGi2 u) (fun k => -(t : ℚ) * vq k) (fun i => -(t : ℚ) * c u i) (by
    intro k
    rw [← hv2 u k, Finset.mul_sum]
    exact Finset.sum_congr rfl fun i _ => by ring)
  have hsum := subst_sum (fun k => ∑ j, ξ j * ((B j k : ℤ) : K)) (fun u => (eps u : ℚ)) _ _ _ hK _ _ _ hF _
    (Verif.ExpSubst.restrict_negligible (fun k => -(t : ℚ) * vq k) hgl) (by
      funext z
      have h1 := hid (rel z fun k => -(t : ℚ) * vq k)
      have h2 : ind {y | ∀ i, 0 ≤ ∑ k, (B i k : ℝ) * y k} (rel z fun k => -(t : ℚ) * vq k) =
          if ∀ j, 0 ≤ (t • s + B.mulVec z) j then 1 else 0 := by
        have hiff : (rel z fun k => -(t : ℚ) * vq k) ∈ {y : Fin n → ℝ | ∀ i, 0 ≤ ∑ k, (B i k : ℝ) * y k} ↔ ∀ j, 0 ≤ (t • s + B.mulVec z) j := ?_
        · unfold ind
          by_cases h : ∀ j, 0 ≤ (t • s + B.mulVec z) j
          · rw [if_pos h, if_pos (hiff.2 h)]
          · rw [if_neg h, if_neg fun h' => h (hiff.1 h')]
        rw [Set.mem_ofPred_eq]
        refine forall_congr' fun i => ?_
        have : ∑ k, (B i k : ℝ) * rel z (fun k => -(t : ℚ) * vq k) k = (((t • s + B.mulVec z) i : ℤ) : ℝ) := by
          have h3 := hv1 i
          have h4 : ((∑ k, (B i k : ℚ) * vq k : ℚ) : ℝ) = (s i : ℝ) := by rw [h3]; norm_num
          simp only [Pi.add_apply, Pi.smul_apply, smul_eq_mul, Matrix.mulVec, dotProduct]
          push_cast at h4 ⊢
          rw [← h4, Finset.mul_sum, ← Finset.sum_add_distrib]
          refine Finset.sum_congr rfl fun k _ => ?_
          unfold rel
          push_cast
          ring
        rw [this]
        exact_mod_cast Iff.rfl
      rw [h2] at h1
      have h5 := congrArg (fun x : ℤ => (x : ℚ)) h1
      simp only [Int.cast_sum, Int.cast_mul, Int.cast_add, Int.cast_ite, Int.cast_one, Int.cast_zero] at h5
      rw [Finset.sum_apply]
      exact h5) n
    (fun u => ∏ i, pole 1 (eta ξ B (G u) i)) (by
      intro u
      rw [map_prod, ← Finset.prod_mul_distrib]
      have : ∀ i, phiK (fun k => ∑ j, ξ j * ((B j k : ℤ) : K)) (1 - mono fun k => G u i k) * pole 1 (eta ξ B (G u) i) = X := by
        intro i
        rw [map_sub, map_one, phiK_mono, hlin]
        exact pole_one _ (hη u i)
      rw [Finset.prod_congr rfl fun i _ => this i]
      simp)
    (∏ i, pole 1 ((f : K) * ξ i)) (by
      rw [map_prod, ← Finset.prod_mul_distrib]
      have hfK : (f : K) ≠ 0 := by exact_mod_cast hf.ne'
      have : ∀ i, phiK (fun k => ∑ j, ξ j * ((B j k : ℤ) : K)) (1 - mono (r i)) * pole 1 ((f : K) * ξ i) = X := by
        intro i
        rw [map_sub, map_one, phiK_mono, hlin, hr]
        have : ∑ j, ξ j * (((Pi.single i (f : ℤ) : Fin n → ℤ) j : ℤ) : K) = (f : K) * ξ i := by
          rw [Finset.sum_eq_single i]
          · simp [mul_comm]
          · intro j _ hj; simp [hj]
          · simp
        rw [this]
        exact pole_one _ (mul_ne_zero hfK (hξ i))
      rw [Finset.prod_congr rfl fun i _ => this i]
      simp)
  -- multiply by `exp(t ⟨ξ,s⟩)`
  obtain ⟨E, hE⟩ : ∃ E, E = ex ((t : K) * ∑ j, ξ j * ((s j : ℤ) : K)) := ⟨_, rfl⟩
  have h6 := congrArg (fun S => E * S) hsum
  beta_reduce at h6
  rw [← mul_assoc, map_sum, Finset.mul_sum, Finset.mul_sum] at h6
  have h7 : ∀ y ∈ boxPts a f t, E * phiK (fun k => ∑ j, ξ j * ((B j k : ℤ) : K)) (mono (zof y)) =
      ex (∑ j, ξ j * ((y j : ℤ) : K)) := by
    intro y hy
    rw [hE, phiK_mono, hlin, ← ex_add, Finset.mul_sum, ← Finset.sum_add_distrib]
    congr 1
    refine Finset.sum_congr rfl fun j _ => ?_
    conv_rhs => rw [← hz y hy]
    simp only [Pi.add_apply, Pi.smul_apply, smul_eq_mul]
    push_cast
    ring
  rw [Finset.sum_congr rfl h7] at h6
  rw [h6]
  refine Finset.sum_congr rfl fun u _ => ?_
  rw [mul_smul_comm, smul_eq_C, ← mul_assoc E, phiK_mono, hlin, hE, ← ex_add]
  congr 3
  have h8 : ∑ j, ξ j * ((s j : ℤ) : K) = ∑ i, ((c u i : ℚ) : K) * eta ξ B (G u) i := by
    unfold eta
    simp only [Finset.mul_sum]
    rw [Finset.sum_comm]
    refine Finset.sum_congr rfl fun j _ => ?_
    have := congrArg (fun q : ℚ => (q : K)) (hc u j)
    simp only [Rat.cast_sum, Rat.cast_mul, Rat.cast_intCast] at this
    rw [← this, Finset.mul_sum]
    exact Finset.sum_congr rfl fun i _ => by ring
  have h9 : ∑ j, ξ j * (((B.mulVec fun k => ∑ i, ⌈-(t : ℚ) * c u i⌉ * G u i k) j : ℤ) : K) = ∑ i, ((⌈-(t : ℚ) * c u i⌉ : ℤ) : K) * eta ξ B (G u) i := by
    unfold eta
    simp only [Finset.mul_sum, Matrix.mulVec, dotProduct]
    rw [Finset.sum_comm]
    refine Finset.sum_congr rfl fun j _ => ?_
    push_cast
    simp only [Finset.mul_sum]
    rw [Finset.sum_comm]
    exact Finset.sum_congr rfl fun i _ => Finset.sum_congr rfl fun k _ => by ring
  rw [h8, h9, Finset.mul_sum, ← Finset.sum_add_distrib]
  refine Finset.sum_congr rfl fun i _ => ?_
  rw [← mul_assoc, ← add_mul]
  congr 1
  rw [neg_mul, Int.ceil_neg, Int.fract]
  push_cast
  ring

end Verif.TopK
