import Verif.Regular.Spec
import Verif.Regular.Geometry

/-!
# Lower facets of the lifted cone are the cells of the regular subdivision
-/

namespace Verif.Regular

open Verif.Barvinok Verif.Barvinok.Spec Verif.Brion

variable {n : ℕ}

theorem generated_iff (L : List (Vec n)) (x : Fin n → ℝ) :
    x ∈ generated L ↔ ∀ y : Fin n → ℝ, (∀ r ∈ L, dot r y ≤ 0) → ∑ k, x k * y k ≤ 0 := by
  unfold generated
  rw [mem_coneOf_iff]
  refine forall_congr' fun y => imp_congr_left ?_
  constructor
  · intro h r hr
    obtain ⟨i, rfl⟩ := List.get_of_mem hr
    exact h i (Set.mem_univ _)
  · intro h i _
    exact h _ (List.get_mem L i)

theorem generated_coneOf {N : ℕ} (a : Fin N → Vec n) (J : Set (Fin N)) (L : List (Vec n)) (h : ∀ r, r ∈ L ↔ ∃ i ∈ J, a i = r) :
    generated L = coneOf a J := by
  ext x
  rw [generated_iff, mem_coneOf_iff]
  refine forall_congr' fun y => imp_congr_left ?_
  constructor
  · intro hy i hi
    exact hy _ ((h _).2 ⟨i, hi, rfl⟩)
  · intro hy r hr
    obtain ⟨i, hi, rfl⟩ := (h r).1 hr
    exact hy i hi

theorem spans_iff {N : ℕ} (a : Fin N → Vec n) (J : Set (Fin N)) (L : List (Vec n)) (h : ∀ r, r ∈ L ↔ ∃ i ∈ J, a i = r) : Spans L ↔ Spanning a J := by
  unfold Spans Spanning
  refine forall_congr' fun d => imp_congr_left ?_
  constructor
  · intro hd i hi
    exact hd _ ((h _).2 ⟨i, hi, rfl⟩)
  · intro hd r hr
    obtain ⟨i, hi, rfl⟩ := (h r).1 hr
    exact hd i hi

theorem generated_subset (L L' : List (Vec n)) (h : ∀ r ∈ L, r ∈ L') : generated L ⊆ generated L' := by
  intro x hx
  rw [generated_iff] at hx ⊢
  exact fun y hy => hx y fun r hr => hy r (h r hr)

/-- Rays with heights, and the vertical ray. -/
noncomputable def lifted {N : ℕ} (a : Fin N → Vec n) (w : Fin N → ℝ) : Fin (N + 1) → Fin (n + 1) → ℝ :=
  Fin.snoc (α := fun _ => Fin (n + 1) → ℝ) (fun i => Fin.cons (w i) fun k => (a i k : ℝ)) (Fin.cons 1 fun _ => 0)

section
variable {N : ℕ} (a : Fin N → Vec n) (w : Fin N → ℝ)

theorem pair_lifted (l : Fin (n + 1) → ℝ) (i : Fin N) :
    ∑ k, l k * lifted a w i.castSucc k = l 0 * w i + dot (a i) (fun k => l k.succ) := by
  unfold lifted dot
  rw [Fin.snoc_castSucc, Fin.sum_univ_succ]
  simp only [Fin.cons_zero, Fin.cons_succ]
  congr 1
  exact Finset.sum_congr rfl fun k _ => mul_comm _ _

theorem pair_vertical (l : Fin (n + 1) → ℝ) : ∑ k, l k * lifted a w (Fin.last N) k = l 0 := by
  unfold lifted
  rw [Fin.snoc_last, Fin.sum_univ_succ]
  simp only [Fin.cons_zero, Fin.cons_succ, mul_one, mul_zero, Finset.sum_const_zero, add_zero]

/-- The functional that belongs to a point. -/
noncomputable def below (v : Fin n → ℝ) : Fin (n + 1) → ℝ := Fin.cons 1 fun k => -v k

theorem pair_below (v : Fin n → ℝ) (i : Fin N) : ∑ k, below v k * lifted a w i.castSucc k = w i - dot (a i) v := by
  rw [pair_lifted]
  unfold below
  rw [Fin.cons_zero, one_mul, show (fun k : Fin n => (Fin.cons (1 : ℝ) (fun k => -v k) : Fin (n + 1) → ℝ) k.succ) = -v from by
    funext k; rw [Fin.cons_succ]; rfl, dot_neg]
  ring

theorem zeros_below (v : Fin n → ℝ) : zeros (lifted a w) (below v) = Fin.castSucc '' tight a w v := by
  ext i
  refine Fin.lastCases ?_ (fun i => ?_) i
  · constructor
    · intro h
      have : ∑ k, below v k * lifted a w (Fin.last N) k = 0 := h
      rw [pair_vertical] at this
      exact absurd this one_ne_zero
    · rintro ⟨j, -, e⟩
      exact absurd e (Fin.castSucc_lt_last j).ne
  · constructor
    · intro h
      have : ∑ k, below v k * lifted a w i.castSucc k = 0 := h
      rw [pair_below] at this
      exact ⟨i, by show dot (a i) v = w i; linarith, rfl⟩
    · rintro ⟨j, hj, e⟩
      rw [Fin.castSucc_inj] at e
      subst e
      show ∑ k, below v k * lifted a w j.castSucc k = 0
      rw [pair_below, show dot (a j) v = w j from hj, sub_self]

theorem face_below (v : Fin n → ℝ) (hv : v ∈ Poly a w) : IsFace (lifted a w) (Fin.castSucc '' tight a w v) := by
  refine ⟨below v, fun i => ?_, (zeros_below a w v).symm⟩
  refine Fin.lastCases ?_ (fun i => ?_) i
  · rw [pair_vertical]
    exact zero_le_one
  · rw [pair_below]
    linarith [hv i]

theorem last_notMem (J : Set (Fin N)) : Fin.last N ∉ Fin.castSucc '' J := by
  rintro ⟨j, -, e⟩
  exact absurd e (Fin.castSucc_lt_last j).ne

theorem image_ne_univ (J : Set (Fin N)) : (Fin.castSucc '' J : Set (Fin (N + 1))) ≠ Set.univ :=
  fun h => last_notMem J (h ▸ Set.mem_univ _)

/-- A vertex gives a facet. -/
theorem facet_of_vertex (v : Fin n → ℝ) (hv : v ∈ Poly a w) (hs : Spanning a (tight a w v)) :
    IsFacet (lifted a w) (Fin.castSucc '' tight a w v) := by
  refine ⟨face_below a w v hv, image_ne_univ _, ?_⟩
  rintro F' ⟨l, hl, rfl⟩ hne hsub
  have hz : ∀ i ∈ tight a w v, l 0 * w i + dot (a i) (fun k => l k.succ) = 0 := by
    intro i hi
    have : ∑ k, l k * lifted a w i.castSucc k = 0 := hsub ⟨i, hi, rfl⟩
    rwa [pair_lifted] at this
  have h0 := hl (Fin.last N)
  rw [pair_vertical] at h0
  have hd := hs (fun k => l k.succ + l 0 * v k) fun i hi => by
    have e : dot (a i) (fun k => l k.succ + l 0 * v k) = dot (a i) (fun k => l k.succ) + l 0 * dot (a i) v := by
      rw [show (fun k : Fin n => l k.succ + l 0 * v k) = (fun k => l k.succ) + l 0 • v from rfl, dot_move]
    rw [e, show dot (a i) v = w i from hi]
    linarith [hz i hi]
  have hl' : ∀ k : Fin n, l k.succ = -(l 0 * v k) := fun k => by
    have := congrFun hd k
    simp only [Pi.zero_apply] at this
    linarith
  have hl0 : l 0 ≠ 0 := by
    intro h
    apply hne
    have : l = 0 := by
      funext k
      refine Fin.cases h (fun k => ?_) k
      rw [hl', h]; simp
    rw [this]
    ext i
    simp [zeros]
  have e : l = l 0 • below v := by
    funext k
    refine Fin.cases ?_ (fun k => ?_) k
    · simp [below]
    · rw [hl']; simp [below]
  rw [← zeros_below, e]
  ext i
  show (∑ k, (l 0 • below v) k * _ = 0) ↔ (∑ k, below v k * _ = 0)
  rw [show ∑ k, (l 0 • below v) k * lifted a w i k = l 0 * ∑ k, below v k * lifted a w i k from by
    rw [Finset.mul_sum]; exact Finset.sum_congr rfl fun k _ => by simp only [Pi.smul_apply, smul_eq_mul]; ring]
  simp [hl0]

/-- A facet without the vertical ray comes from a vertex. -/
theorem vertex_of_facet (hspan : Spanning a Set.univ) (F : Set (Fin (N + 1))) (hF : IsFacet (lifted a w) F) (hlast : Fin.last N ∉ F) :
    ∃ v ∈ Poly a w, Spanning a (tight a w v) ∧ F = Fin.castSucc '' tight a w v := by
  obtain ⟨⟨l, hl, rfl⟩, hne, hmax⟩ := hF
  have h0 : 0 < l 0 := by
    have h1 := hl (Fin.last N)
    rw [pair_vertical] at h1
    refine lt_of_le_of_ne h1 fun e => hlast ?_
    show ∑ k, l k * _ = 0
    rw [pair_vertical]
    exact e.symm
  set v : Fin n → ℝ := fun k => -(l k.succ / l 0) with hv
  have e : l = l 0 • below v := by
    funext k
    refine Fin.cases ?_ (fun k => ?_) k
    · simp [below]
    · simp only [below, hv, Pi.smul_apply, Fin.cons_succ, neg_neg, smul_eq_mul]
      field_simp
  have hpair : ∀ i, ∑ k, l k * lifted a w i k = l 0 * ∑ k, below v k * lifted a w i k := by
    intro i
    conv_lhs => rw [e]
    rw [Finset.mul_sum]
    exact Finset.sum_congr rfl fun k _ => by simp only [Pi.smul_apply, smul_eq_mul]; ring
  have hz : zeros (lifted a w) l = Fin.castSucc '' tight a w v := by
    rw [← zeros_below]
    ext i
    show (∑ k, l k * _ = 0) ↔ (∑ k, below v k * _ = 0)
    rw [hpair]
    simp [h0.ne']
  have hvP : v ∈ Poly a w := by
    intro i
    have h1 := hl i.castSucc
    rw [hpair, pair_below] at h1
    have := nonneg_of_mul_nonneg_right h1 h0
    linarith
  refine ⟨v, hvP, ?_, hz⟩
  by_contra hs
  unfold Spanning at hs
  push Not at hs
  obtain ⟨d, hd, hdne⟩ := hs
  obtain ⟨d', hd', hit⟩ : ∃ d' : Fin n → ℝ, (∀ i ∈ tight a w v, dot (a i) d' = 0) ∧ ∃ i, 0 < dot (a i) d' := by
    by_cases hit : ∃ i, 0 < dot (a i) d
    · exact ⟨d, hd, hit⟩
    · push Not at hit
      refine ⟨-d, fun i hi => by rw [dot_neg, hd i hi, neg_zero], ?_⟩
      by_contra hc
      push Not at hc
      refine hdne (hspan d fun i _ => le_antisymm (hit i) ?_)
      have := hc i
      rw [dot_neg] at this
      linarith
  obtain ⟨t, -, hP, hss⟩ := move a w v d' hvP hd' hit
  have h2 := hmax _ (face_below a w _ hP) (image_ne_univ _) (by rw [hz]; exact Set.image_mono hss.subset)
  rw [hz] at h2
  have := (Set.image_injective.2 (Fin.castSucc_injective N)) h2
  exact hss.ne this.symm

end

/-- A coordinate that is zero for all generators does not matter. -/
theorem face_cons {M d : ℕ} (g : Fin M → Fin d → ℝ) (F : Set (Fin M)) :
    IsFace (fun i => (Fin.cons 0 (g i) : Fin (d + 1) → ℝ)) F ↔ IsFace g F := by
  have key : ∀ (l : Fin (d + 1) → ℝ) (i : Fin M), ∑ k, l k * (Fin.cons 0 (g i) : Fin (d + 1) → ℝ) k = ∑ k : Fin d, l k.succ * g i k := by
    intro l i
    rw [Fin.sum_univ_succ]
    simp only [Fin.cons_zero, mul_zero, Fin.cons_succ, zero_add]
  constructor
  · rintro ⟨l, hl, rfl⟩
    refine ⟨fun k => l k.succ, fun i => by rw [← key]; exact hl i, ?_⟩
    ext i
    show (∑ k, l k * _ = 0) ↔ (∑ k, _ * _ = 0)
    rw [key]
  · rintro ⟨l, hl, rfl⟩
    refine ⟨Fin.cons 0 l, fun i => by rw [key]; simpa using hl i, ?_⟩
    ext i
    show (∑ k, l k * _ = 0) ↔ (∑ k, _ * _ = 0)
    rw [key]
    simp

theorem facet_cons {M d : ℕ} (g : Fin M → Fin d → ℝ) (F : Set (Fin M)) :
    IsFacet (fun i => (Fin.cons 0 (g i) : Fin (d + 1) → ℝ)) F ↔ IsFacet g F := by
  unfold IsFacet
  simp only [face_cons]

/-- The rays of a list, and their heights. -/
def rayOf (rays : List (Vec n)) : Fin rays.length → Vec n := fun i => rays.get i

noncomputable def heightOf (rays : List (Vec n)) (ws : List ℤ) : Fin rays.length → ℝ := fun i => (ws.getD i 0 : ℤ)

theorem ddMatrix_eq (rays : List (Vec n)) (ws : List ℤ) :
    (fun i k => ((ddMatrix rays ws i k : ℚ) : ℝ)) = fun i => (Fin.cons 0 (lifted (rayOf rays) (heightOf rays ws) i) : Fin (n + 2) → ℝ) := by
  funext i k
  refine Fin.lastCases ?_ (fun i => ?_) i
  · unfold ddMatrix lifted
    simp only [Fin.snoc_last]
    refine Fin.cases (by simp) (fun k => ?_) k
    rw [Fin.cons_succ, Fin.cons_succ]
    refine Fin.cases (by simp) (fun k => ?_) k
    rw [Fin.cons_succ, Fin.cons_succ]
    simp
  · unfold ddMatrix lifted
    simp only [Fin.snoc_castSucc]
    refine Fin.cases (by simp) (fun k => ?_) k
    rw [Fin.cons_succ, Fin.cons_succ]
    refine Fin.cases (by simp [heightOf]) (fun k => ?_) k
    rw [Fin.cons_succ, Fin.cons_succ]
    simp [rayOf]

theorem rayMatrix_eq (rays : List (Vec n)) (ws : List ℤ) :
    (fun i k => ((rayMatrix rays ws i k : ℤ) : ℝ)) = lifted (rayOf rays) (heightOf rays ws) := by
  funext i k
  refine Fin.lastCases ?_ (fun i => ?_) i
  · unfold rayMatrix lifted
    simp only [Fin.snoc_last]
    refine Fin.cases (by simp) (fun k => ?_) k
    rw [Fin.cons_succ, Fin.cons_succ]
    simp
  · unfold rayMatrix lifted
    simp only [Fin.snoc_castSucc]
    refine Fin.cases (by simp [heightOf]) (fun k => ?_) k
    rw [Fin.cons_succ, Fin.cons_succ]
    simp [rayOf]

end Verif.Regular
