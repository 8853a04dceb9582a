import Verif.Valuation.Props
import Verif.Measure.Lawrence
import Verif.Lawrence.Props
import Mathlib.Analysis.Convex.Extreme

/-! Specification vocabulary for the cone-decomposition method, and Lawrence's formula for the cones of the model. -/

namespace Verif.Valuation

open MeasureTheory Set Verif.Measure Verif.Trie Latte.RatVec
open scoped Pointwise

/-- **Specification.** An integer vector as a point of `ℝ^n`. -/
def vecR (n : ℕ) (r : List ℤ) : Fin n → ℝ := fun i => ((r.getD i 0 : ℤ) : ℝ)

/-- **Specification.** The cone generated by a list of rays. -/
def rayCone (n : ℕ) (rays : List (List ℤ)) : Set (Fin n → ℝ) :=
  {y | ∃ m : Fin rays.length → ℝ, (∀ i, 0 ≤ m i) ∧ y = ∑ i, m i • vecR n rays[i]}

/-- **Specification.** `cones` are the tangent cones of a polytope: different vertices, all of them extreme points, and the rays at a
vertex generate the cone of feasible directions there. -/
structure TangentCones (n : ℕ) (cones : List VCone) : Prop where
  ne : cones ≠ []
  vertex : ∀ c ∈ cones, VertexOk n c.vertex
  distinct : (cones.map fun c => pointR n c.vertex).Nodup
  extreme : ∀ c ∈ cones, pointR n c.vertex ∈ (polytope n cones).extremePoints ℝ
  tangent : ∀ c ∈ cones, rayCone n c.rays = {y | ∃ t : ℝ, 0 < t ∧ pointR n c.vertex + t • y ∈ polytope n cones}

/-- **Specification.** `out` is a decomposition of the cone `c` into simplicial cones with non-overlapping interiors, all with the vertex
of `c` and coefficient 1. -/
structure Simplicial (n : ℕ) (c : VCone) (out : List VCone) : Prop where
  vertex : ∀ k ∈ out, k.vertex = c.vertex
  coef : ∀ k ∈ out, k.coef = 1
  size : ∀ k ∈ out, k.rays.length = n
  len : ∀ k ∈ out, ∀ r ∈ k.rays, r.length = n
  indep : ∀ k ∈ out, (Matrix.of fun i j : Fin n => (k.rays.getD j []).getD i 0).det ≠ 0
  cover : rayCone n c.rays = ⋃ k ∈ out, rayCone n k.rays
  overlap : out.Pairwise fun k k' => volume (rayCone n k.rays ∩ rayCone n k'.rays) = 0

/-- **Specification.** Contract of the triangulation engine for the tangent cones of a polytope and of its dilates. -/
def TriangulatesCones (T : ℕ → VCone → List VCone) (n : ℕ) (cones : List VCone) : Prop :=
  ∀ (i : ℕ) (c : VCone), cones[i]? = some c → ∀ w : RVec, VertexOk n w → (∃ t : ℝ, 0 < t ∧ pointR n w = t • pointR n c.vertex) →
    Simplicial n { c with vertex := w } (T i { c with vertex := w })

/-! ### the geometry of the cones -/

/-- what the proofs use about the cones -/
structure TC (n : ℕ) (cones : List VCone) : Prop where
  ne : cones ≠ []
  vertex : ∀ c ∈ cones, VertexOk n c.vertex
  far : ∀ k : Fin cones.length, pointR n cones[k].vertex ∉ convexHull ℝ ((fun i : Fin cones.length => pointR n cones[i].vertex) '' {k}ᶜ)
  tangent : ∀ k : Fin cones.length, rayCone n cones[k].rays = tcone (fun i : Fin cones.length => pointR n cones[i].vertex) k

theorem polytope_eq_range (n : ℕ) (cones : List VCone) :
    polytope n cones = convexHull ℝ (range fun i : Fin cones.length => pointR n cones[i].vertex) := by
  unfold polytope
  congr 1
  ext x
  simp only [mem_ofPred_eq, mem_range]
  constructor
  · rintro ⟨c, hc, rfl⟩
    obtain ⟨i, hi, rfl⟩ := List.mem_iff_getElem.1 hc
    exact ⟨⟨i, hi⟩, rfl⟩
  · rintro ⟨i, rfl⟩
    exact ⟨cones[i], List.getElem_mem _, rfl⟩

/-- feasible directions -/
theorem tcone_eq_feasible {n : ℕ} {ι : Type} [Fintype ι] [DecidableEq ι] (v : ι → Fin n → ℝ) (k : ι) :
    tcone v k = {y | ∃ t : ℝ, 0 < t ∧ v k + t • y ∈ convexHull ℝ (range v)} := by
  ext y
  rw [mem_ofPred_eq, convexHull_range]
  constructor
  · rintro ⟨m, hm, rfl⟩
    set S := ∑ w, m w with hS
    have hS0 : 0 ≤ S := Finset.sum_nonneg fun w _ => hm w
    have hp : (0:ℝ) < 1 / (S + 1) := by positivity
    refine ⟨1 / (S + 1), hp, fun w => (1 / (S + 1)) * m w + (if w = k then 1 - (1 / (S + 1)) * S else 0), ?_, ?_, ?_⟩
    · intro w
      have h1 : 0 ≤ (1 / (S + 1)) * m w := mul_nonneg hp.le (hm w)
      have h2 : 0 ≤ 1 - (1 / (S + 1)) * S := by
        rw [sub_nonneg, div_mul_eq_mul_div, one_mul, div_le_one (by linarith)]; linarith
      beta_reduce
      split_ifs <;> linarith
    · rw [Finset.sum_add_distrib, ← Finset.mul_sum, ← hS]; simp
    · simp only [add_smul, ite_smul, zero_smul, Finset.sum_add_distrib, Finset.sum_ite_eq', Finset.mem_univ, if_true, smul_sub,
        Finset.sum_sub_distrib, Finset.smul_sum, sub_smul, one_smul, mul_smul]
      rw [← Finset.smul_sum (f := fun w => m w • v k), ← Finset.sum_smul, ← hS]
      module
  · rintro ⟨t, ht, l, hl, hl1, he⟩
    refine ⟨fun w => t⁻¹ * l w, fun w => by have := hl w; positivity, ?_⟩
    have h1 : t • y = ∑ w, l w • (v w - v k) := by
      simp only [smul_sub, Finset.sum_sub_distrib, ← Finset.sum_smul, hl1, one_smul, ← he]
      module
    have h2 : y = t⁻¹ • (t • y) := by rw [smul_smul, inv_mul_cancel₀ ht.ne', one_smul]
    rw [h2, h1, Finset.smul_sum]
    simp only [mul_smul]

theorem TangentCones.tc {n : ℕ} {cones : List VCone} (h : TangentCones n cones) : TC n cones := by
  have hconv : Convex ℝ (polytope n cones) := convex_convexHull ℝ _
  refine ⟨h.ne, h.vertex, ?_, ?_⟩
  · intro k hk
    have hx := h.extreme cones[k] (List.getElem_mem _)
    rw [hconv.mem_extremePoints_iff_mem_sdiff_convexHull_sdiff] at hx
    apply hx.2
    refine convexHull_mono ?_ hk
    rintro _ ⟨i, hi, rfl⟩
    refine ⟨subset_convexHull ℝ _ ⟨cones[i], List.getElem_mem _, rfl⟩, ?_⟩
    simp only [mem_singleton_iff]
    intro e
    apply hi
    have hnd := h.distinct
    rw [List.nodup_iff_injective_getElem] at hnd
    have := @hnd ⟨i, by simp⟩ ⟨k, by simp⟩ (by simpa using e)
    simp only [Fin.mk.injEq] at this
    exact mem_singleton_iff.2 (Fin.ext this)
  · intro k
    rw [h.tangent cones[k] (List.getElem_mem _), tcone_eq_feasible, polytope_eq_range]

theorem tcone_smul {n : ℕ} {ι : Type} [Fintype ι] (v w : ι → Fin n → ℝ) (t : ℝ) (ht : 0 < t) (h : ∀ i, w i = t • v i) (k : ι) :
    tcone w k = tcone v k := by
  ext y
  constructor
  · rintro ⟨m, hm, rfl⟩
    refine ⟨fun i => m i * t, fun i => mul_nonneg (hm i) ht.le, ?_⟩
    apply Finset.sum_congr rfl
    intro i _; rw [h, h, ← smul_sub, smul_smul]
  · rintro ⟨m, hm, rfl⟩
    refine ⟨fun i => m i * t⁻¹, fun i => mul_nonneg (hm i) (inv_nonneg.2 ht.le), ?_⟩
    apply Finset.sum_congr rfl
    intro i _; rw [h, h, ← smul_sub, smul_smul, mul_assoc, inv_mul_cancel₀ ht.ne', mul_one]

/-- dilating a polytope leaves the rays of its tangent cones -/
theorem TC.dilate {n : ℕ} {cones : List VCone} (h : TC n cones) (f : VCone → VCone) (t : ℝ) (ht : 0 < t)
    (hf : ∀ c ∈ cones, (f c).rays = c.rays ∧ VertexOk n (f c).vertex ∧ pointR n (f c).vertex = t • pointR n c.vertex) :
    TC n (cones.map f) := by
  let φ : Fin (cones.map f).length ≃ Fin cones.length := finCongr (by simp)
  have hφ : ∀ i : Fin (cones.map f).length, (cones.map f)[i] = f cones[φ i] := by
    intro i; simp [φ]
  have hv : ∀ i : Fin (cones.map f).length, pointR n (cones.map f)[i].vertex = t • pointR n cones[φ i].vertex := by
    intro i; rw [hφ]; exact (hf _ (List.getElem_mem _)).2.2
  refine ⟨by simpa using h.ne, ?_, ?_, ?_⟩
  · intro c hc
    obtain ⟨k, hk, rfl⟩ := List.mem_map.1 hc
    exact (hf k hk).2.1
  · intro k hk
    apply h.far (φ k)
    rw [hv k] at hk
    have hset : ((fun i : Fin (cones.map f).length => pointR n (cones.map f)[i].vertex) '' {k}ᶜ) =
        t • ((fun i : Fin cones.length => pointR n cones[i].vertex) '' {φ k}ᶜ) := by
      ext x
      simp only [mem_image, mem_smul_set]
      constructor
      · rintro ⟨i, hi, rfl⟩
        exact ⟨_, ⟨φ i, fun e => hi (φ.injective e), rfl⟩, (hv i).symm⟩
      · rintro ⟨_, ⟨i, hi, rfl⟩, rfl⟩
        refine ⟨φ.symm i, fun e => hi ?_, ?_⟩
        · rw [mem_singleton_iff] at e ⊢; rw [← e]; simp
        · rw [hv]; simp
    rw [hset, convexHull_smul, smul_mem_smul_set_iff₀ ht.ne'] at hk
    exact hk
  · intro k
    have hr : (cones.map f)[k].rays = cones[φ k].rays := by rw [hφ]; exact (hf _ (List.getElem_mem _)).1
    have h1 := h.tangent (φ k)
    rw [hr, h1]
    rw [tcone_smul (fun i : Fin (cones.map f).length => pointR n cones[φ i].vertex) _ t ht hv k]
    ext y
    constructor
    · rintro ⟨m, hm, rfl⟩
      exact ⟨m ∘ φ, fun i => hm _, (Equiv.sum_comp φ (fun i => m i • (pointR n cones[i].vertex - pointR n cones[φ k].vertex))).symm⟩
    · rintro ⟨m, hm, rfl⟩
      refine ⟨m ∘ φ.symm, fun i => hm _, ?_⟩
      rw [← Equiv.sum_comp φ]
      simp

/-! ### Lawrence's formula for the cones of the model -/

/-- the rays of a simplicial cone as a family -/
def fam (n : ℕ) (rays : List (List ℤ)) : Fin n → Fin n → ℝ := fun j => vecR n (rays.getD j [])

theorem rayCone_eq_scone (n : ℕ) (rays : List (List ℤ)) (h : rays.length = n) : rayCone n rays = scone n (fam n rays) := by
  subst h
  ext y
  have : ∀ i : Fin rays.length, fam rays.length rays i = vecR rays.length rays[i] := by
    intro i; unfold fam; rw [List.getD_eq_getElem _ _ i.2]; rfl
  unfold rayCone scone
  simp only [mem_ofPred_eq, this]

theorem ray_mem (n : ℕ) (rays : List (List ℤ)) (h : rays.length = n) (i : Fin n) : fam n rays i ∈ rayCone n rays := by
  rw [rayCone_eq_scone n rays h]
  refine ⟨fun j => if j = i then 1 else 0, fun j => by positivity, ?_⟩
  simp [ite_smul]

theorem prod_fam (n : ℕ) (rays : List (List ℤ)) (h : rays.length = n) (g : (Fin n → ℝ) → ℝ) :
    ∏ i, g (fam n rays i) = (rays.map fun r => g (vecR n r)).prod := by
  subst h
  rw [← List.prod_ofFn]
  congr 1
  apply List.ext_getElem (by simp)
  intro i h1 h2
  have hi : i < rays.length := by simpa using h1
  simp only [List.getElem_ofFn, List.getElem_map, fam]
  rw [List.getD_eq_getElem _ _ hi]

/-- the determinant of the rays -/
noncomputable def detR (n : ℕ) (rays : List (List ℤ)) : ℝ := ((Latte.Lawrence.absDet n rays : ℤ) : ℝ)

theorem detR_eq (n : ℕ) (rays : List (List ℤ)) : detR n rays = |(colMat n (fam n rays)).det| := by
  unfold detR Latte.Lawrence.absDet
  rw [Int.cast_abs]
  congr 1
  have : colMat n (fam n rays) = (Matrix.of fun (i j : Fin n) => (rays.getD j []).getD i 0).map (Int.castRingHom ℝ) := by
    ext i j; simp [colMat, fam, vecR]
  rw [this, ← RingHom.mapMatrix_apply, ← RingHom.map_det]; rfl

/-- the contribution of one simplicial cone -/
noncomputable def contrib (n M : ℕ) (l : Fin n → ℝ) (k : VCone) : ℝ :=
  detR n k.rays * ip l (pointR n k.vertex) ^ (M + n) / (k.rays.map fun r => -ip l (vecR n r)).prod

theorem lawrence_cones (n : ℕ) (cones : List VCone) (h : TC n cones) (out : Fin cones.length → List VCone)
    (hout : ∀ i, Simplicial n cones[i] (out i)) (M : ℕ) (l : Fin n → ℝ)
    (hl : ∀ i, ∀ k ∈ out i, ∀ r ∈ k.rays, ip l (vecR n r) ≠ 0) :
    ∫ x in polytope n cones, ip l x ^ M =
      (M.factorial : ℝ) / ((M + n).factorial : ℝ) * ∑ i, ((out i).map (contrib n M l)).sum := by
  classical
  rw [polytope_eq_range]
  have hsz : ∀ (i : Fin cones.length) (c : Fin (out i).length), (out i)[c].rays.length = n := fun i c => (hout i).size _ (List.getElem_mem _)
  have hdec : ∀ i, Decomp n (tcone (fun i : Fin cones.length => pointR n cones[i].vertex) i)
      (fun c : Fin (out i).length => fam n (out i)[c].rays) := by
    intro i
    constructor
    · rw [← h.tangent i, (hout i).cover]
      have hEq : (⋃ k ∈ out i, rayCone n k.rays) = ⋃ c : Fin (out i).length, scone n (fam n (out i)[c].rays) := ?_
      · rw [hEq]; exact Filter.EventuallyEq.rfl
      refine Set.ext fun y => ?_
      rw [mem_iUnion₂, mem_iUnion]
      constructor
      · rintro ⟨k, hk, hy⟩
        obtain ⟨j, hj, rfl⟩ := List.mem_iff_getElem.1 hk
        exact ⟨⟨j, hj⟩, by rw [← rayCone_eq_scone n _ (hsz i ⟨j, hj⟩)]; exact hy⟩
      · rintro ⟨c, hy⟩
        exact ⟨(out i)[c], List.getElem_mem _, by rw [rayCone_eq_scone n _ (hsz i c)]; exact hy⟩
    · intro a b hab
      rw [← rayCone_eq_scone n _ (hsz i a), ← rayCone_eq_scone n _ (hsz i b)]
      have hp := List.pairwise_iff_getElem.1 (hout i).overlap
      rcases lt_or_gt_of_ne hab with h1 | h1
      · exact hp a b a.2 b.2 h1
      · rw [inter_comm]; exact hp b a b.2 a.2 h1
  have hsub : ∀ (i : Fin cones.length) (c : Fin (out i).length) (j : Fin n), fam n (out i)[c].rays j ∈
      tcone (fun i : Fin cones.length => pointR n cones[i].vertex) i := by
    intro i c j
    rw [← h.tangent i, (hout i).cover]
    exact mem_iUnion₂.2 ⟨(out i)[c], List.getElem_mem _, ray_mem n _ (hsz i c) j⟩
  rw [lawrence (fun i : Fin cones.length => pointR n cones[i].vertex) h.far (fun i => Fin (out i).length)
    (fun i c => fam n (out i)[c].rays) hdec hsub M l ?_]
  · congr 1
    apply Finset.sum_congr rfl
    intro i _
    unfold gf
    rw [Finset.mul_sum, ← List.sum_ofFn]
    congr 1
    apply List.ext_getElem (by simp)
    intro j h1 h2
    have hj : j < (out i).length := by simpa using h1
    simp only [List.getElem_ofFn, List.getElem_map, contrib]
    have hs : ((out i)[j]).rays.length = n := hsz i ⟨j, hj⟩
    rw [(hout i).vertex _ (List.getElem_mem _), detR_eq, ← prod_fam n _ hs (fun r => -ip l r)]
    simp only [Fin.getElem_fin]
    ring
  · intro i c j
    have : fam n (out i)[c].rays j = vecR n ((out i)[c].rays.getD j []) := rfl
    rw [this]
    exact hl i _ (List.getElem_mem _) _ (getD_mem _ _ (lt_of_lt_of_eq j.2 (hsz i c).symm))

/-! ### the list of all simplicial cones -/

theorem triangulateLoop_sum (T : ℕ → VCone → List VCone) (f : VCone → ℝ) : ∀ (cs : List VCone) (k : ℕ) (acc : List VCone),
    ((triangulateLoop T k cs acc).map f).sum = (∑ i : Fin cs.length, ((T (k + i) cs[i]).map f).sum) + (acc.map f).sum := by
  intro cs
  induction cs with
  | nil => intro k acc; simp [triangulateLoop]
  | cons c cs ih =>
    intro k acc
    rw [triangulateLoop, ih, List.map_append, List.sum_append]
    simp only [List.length_cons]
    rw [Fin.sum_univ_succ]
    simp only [Fin.getElem_fin, Fin.val_zero, List.getElem_cons_zero, Fin.val_succ, List.getElem_cons_succ, add_zero]
    have : ∀ i : Fin cs.length, k + 1 + (i : ℕ) = k + ((i : ℕ) + 1) := fun i => by omega
    simp only [this]
    ring

theorem triangulateLoop_mem (T : ℕ → VCone → List VCone) (x : VCone) : ∀ (cs : List VCone) (k : ℕ) (acc : List VCone),
    x ∈ triangulateLoop T k cs acc ↔ (∃ i : Fin cs.length, x ∈ T (k + i) cs[i]) ∨ x ∈ acc := by
  intro cs
  induction cs with
  | nil => intro k acc; simp [triangulateLoop]
  | cons c cs ih =>
    intro k acc
    rw [triangulateLoop, ih, List.mem_append]
    simp only [List.length_cons]
    rw [Fin.exists_fin_succ]
    simp only [Fin.getElem_fin, Fin.val_zero, List.getElem_cons_zero, Fin.val_succ, List.getElem_cons_succ, add_zero]
    have : ∀ i : Fin cs.length, k + 1 + (i : ℕ) = k + ((i : ℕ) + 1) := fun i => by omega
    simp only [this]
    tauto

/-- what is known about the list of simplicial cones of a polytope -/
structure AllOk (n : ℕ) (cones : List VCone) (cs : List VCone) : Prop where
  ne : cs ≠ []
  vertex : ∀ k ∈ cs, ∃ c ∈ cones, k.vertex = c.vertex
  coef : ∀ k ∈ cs, k.coef = 1
  size : ∀ k ∈ cs, k.rays.length = n
  len : ∀ k ∈ cs, ∀ r ∈ k.rays, r.length = n
  indep : ∀ k ∈ cs, Latte.Lawrence.absDet n k.rays ≠ 0
  lawrence : ∀ (M : ℕ) (l : Fin n → ℝ), (∀ k ∈ cs, ∀ r ∈ k.rays, ip l (vecR n r) ≠ 0) →
    ∫ x in polytope n cones, ip l x ^ M = (M.factorial : ℝ) / ((M + n).factorial : ℝ) * (cs.map (contrib n M l)).sum

theorem allOk (T : ℕ → VCone → List VCone) (n : ℕ) (cones : List VCone) (h : TC n cones)
    (hT : ∀ (i : ℕ) (c : VCone), cones[i]? = some c → Simplicial n c (T i c)) :
    AllOk n cones (triangulateLoop T 0 cones []) := by
  have hmem : ∀ x, x ∈ triangulateLoop T 0 cones [] ↔ ∃ i : Fin cones.length, x ∈ T i cones[i] := by
    intro x; rw [triangulateLoop_mem]; simp
  have hS : ∀ i : Fin cones.length, Simplicial n cones[i] (T i cones[i]) := fun i => hT i _ (by simp)
  refine ⟨?_, ?_, ?_, ?_, ?_, ?_, ?_⟩
  · intro he
    have hpos : 0 < cones.length := List.length_pos_of_ne_nil h.ne
    have h0 : (0 : Fin n → ℝ) ∈ rayCone n cones[(⟨0, hpos⟩ : Fin cones.length)].rays := ⟨fun _ => 0, fun _ => le_rfl, by simp⟩
    rw [(hS ⟨0, hpos⟩).cover] at h0
    obtain ⟨k, hk, _⟩ := mem_iUnion₂.1 h0
    have := (hmem k).2 ⟨_, hk⟩
    rw [he] at this; simp at this
  · intro k hk
    obtain ⟨i, hi⟩ := (hmem k).1 hk
    exact ⟨cones[i], List.getElem_mem _, (hS i).vertex k hi⟩
  · intro k hk
    obtain ⟨i, hi⟩ := (hmem k).1 hk
    exact (hS i).coef k hi
  · intro k hk
    obtain ⟨i, hi⟩ := (hmem k).1 hk
    exact (hS i).size k hi
  · intro k hk
    obtain ⟨i, hi⟩ := (hmem k).1 hk
    exact (hS i).len k hi
  · intro k hk
    obtain ⟨i, hi⟩ := (hmem k).1 hk
    unfold Latte.Lawrence.absDet
    rw [abs_ne_zero]
    exact (hS i).indep k hi
  · intro M l hl
    rw [lawrence_cones n cones h (fun i => T i cones[i]) hS M l (fun i k hk => hl k ((hmem k).2 ⟨i, hk⟩)), triangulateLoop_sum]
    simp

end Verif.Valuation
