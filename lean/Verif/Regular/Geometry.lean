import Verif.Brion.Cones

/-!
# Regular subdivisions of a cone

Purely mathematical.  Vectors `a i` with heights `w i`.  The points `l` with `⟨a i, l⟩ ≤ w i` for all `i`, at which the vectors that are tight
span the space, give the cells of the subdivision.
-/

namespace Verif.Regular

open Verif.Barvinok Verif.Barvinok.Spec Verif.Brion

variable {n N : ℕ}

/-- The vectors that are tight at `l`. -/
def tight (a : Fin N → Vec n) (w : Fin N → ℝ) (l : Fin n → ℝ) : Set (Fin N) := {i | dot (a i) l = w i}

/-- The vectors `a i` with `i ∈ J` span the space: no vector but zero is orthogonal to all of them. -/
def Spanning (a : Fin N → Vec n) (J : Set (Fin N)) : Prop := ∀ d : Fin n → ℝ, (∀ i ∈ J, dot (a i) d = 0) → d = 0

theorem Spanning.mono {a : Fin N → Vec n} {J J' : Set (Fin N)} (h : Spanning a J) (hJ : J ⊆ J') : Spanning a J' :=
  fun d hd => h d fun i hi => hd i (hJ hi)

theorem dot_neg (f : Vec n) (x : Fin n → ℝ) : dot f (-x) = -dot f x := by
  have := dot_smul' f (-1) x
  rw [neg_one_smul] at this
  rw [this]; ring

theorem dot_move (f : Vec n) (l d : Fin n → ℝ) (t : ℝ) : dot f (l + t • d) = dot f l + t * dot f d := by
  rw [dot_add', dot_smul']

theorem pair_coneOf {a : Fin N → Vec n} {J : Set (Fin N)} {x : Fin n → ℝ} (hx : x ∈ coneOf a J) (y : Fin n → ℝ)
    (hy : ∀ i ∈ J, dot (a i) y ≤ 0) : ∑ k, x k * y k ≤ 0 := (mem_coneOf_iff a J x).1 hx y hy

/-- Moving from `l` in a direction that leaves the tight vectors tight until a new one is. -/
theorem move (a : Fin N → Vec n) (w : Fin N → ℝ) (l d : Fin n → ℝ) (hl : l ∈ Poly a w) (hd : ∀ i ∈ tight a w l, dot (a i) d = 0)
    (hit : ∃ i, 0 < dot (a i) d) : ∃ t : ℝ, 0 < t ∧ l + t • d ∈ Poly a w ∧ tight a w l ⊂ tight a w (l + t • d) := by
  classical
  set H : Finset (Fin N) := Finset.univ.filter fun i => 0 < dot (a i) d with hH
  have hne : H.Nonempty := by
    obtain ⟨i, hi⟩ := hit
    exact ⟨i, by simp [hH, hi]⟩
  obtain ⟨j, hj, hmin⟩ := Finset.exists_min_image H (fun i => (w i - dot (a i) l) / dot (a i) d) hne
  have hjd : 0 < dot (a j) d := (Finset.mem_filter.1 hj).2
  have hjl : dot (a j) l < w j := by
    refine lt_of_le_of_ne (hl j) fun e => ?_
    rw [hd j e] at hjd
    exact lt_irrefl _ hjd
  set t := (w j - dot (a j) l) / dot (a j) d with ht
  have htp : 0 < t := div_pos (by linarith) hjd
  refine ⟨t, htp, fun i => ?_, ?_⟩
  · rw [dot_move]
    rcases le_or_gt (dot (a i) d) 0 with h | h
    · have := hl i
      nlinarith
    · have := hmin i (by simp [hH, h])
      rw [le_div_iff₀ h] at this
      linarith
  · refine ⟨fun i hi => ?_, fun hsub => ?_⟩
    · show dot (a i) _ = w i
      rw [dot_move, hd i hi, mul_zero, add_zero]
      exact hi
    · have hmem : j ∈ tight a w (l + t • d) := by
        show dot (a j) _ = w j
        rw [dot_move, ht, div_mul_cancel₀ _ hjd.ne']
        ring
      exact hjl.ne (hsub hmem)

/-- From any point a vertex is reached that is not worse for a vector of the cone. -/
theorem push (a : Fin N → Vec n) (w : Fin N → ℝ) (hspan : Spanning a Set.univ) (x : Fin n → ℝ) (hx : x ∈ coneOf a Set.univ) :
    ∀ (s : ℕ) (l : Fin n → ℝ), l ∈ Poly a w → N - (tight a w l).ncard ≤ s →
      ∃ v ∈ Poly a w, Spanning a (tight a w v) ∧ ∑ k, x k * l k ≤ ∑ k, x k * v k := by
  intro s
  induction s with
  | zero =>
    intro l hl hs
    refine ⟨l, hl, ?_, le_rfl⟩
    have hc : (tight a w l).ncard = N := by
      have h1 : (tight a w l).ncard ≤ N := by
        have := Set.ncard_le_ncard (Set.subset_univ (tight a w l))
        rwa [Set.ncard_univ, Nat.card_eq_fintype_card, Fintype.card_fin] at this
      omega
    have : tight a w l = Set.univ := by
      apply Set.eq_of_subset_of_ncard_le (Set.subset_univ _)
      rw [Set.ncard_univ, Nat.card_eq_fintype_card, Fintype.card_fin, hc]
    rw [this]
    exact hspan
  | succ s ih =>
    intro l hl hs
    by_cases hsp : Spanning a (tight a w l)
    · exact ⟨l, hl, hsp, le_rfl⟩
    · unfold Spanning at hsp
      push Not at hsp
      obtain ⟨d0, hd0, hd0'⟩ := hsp
      -- a direction that is not worse and hits
      obtain ⟨d, hd, hit, hpos⟩ : ∃ d : Fin n → ℝ, (∀ i ∈ tight a w l, dot (a i) d = 0) ∧ (∃ i, 0 < dot (a i) d) ∧ 0 ≤ ∑ k, x k * d k := by
        have key : ∀ d : Fin n → ℝ, d ≠ 0 → (∀ i ∈ tight a w l, dot (a i) d = 0) → 0 ≤ ∑ k, x k * d k →
            ∃ d : Fin n → ℝ, (∀ i ∈ tight a w l, dot (a i) d = 0) ∧ (∃ i, 0 < dot (a i) d) ∧ 0 ≤ ∑ k, x k * d k := by
          intro d hne hd hp
          by_cases hit : ∃ i, 0 < dot (a i) d
          · exact ⟨d, hd, hit, hp⟩
          · push Not at hit
            have h0 := pair_coneOf hx d fun i _ => hit i
            refine ⟨-d, fun i hi => by rw [dot_neg, hd i hi, neg_zero], ?_, ?_⟩
            · by_contra hc
              push Not at hc
              refine hne (hspan d fun i _ => le_antisymm (hit i) ?_)
              have := hc i
              rw [dot_neg] at this
              linarith
            · have : ∑ k, x k * (-d) k = -∑ k, x k * d k := by
                rw [← Finset.sum_neg_distrib]
                exact Finset.sum_congr rfl fun k _ => by rw [Pi.neg_apply, mul_neg]
              rw [this]; linarith
        rcases le_or_gt 0 (∑ k, x k * d0 k) with h | h
        · exact key d0 hd0' hd0 h
        · refine key (-d0) (neg_ne_zero.2 hd0') (fun i hi => by rw [dot_neg, hd0 i hi, neg_zero]) ?_
          have : ∑ k, x k * (-d0) k = -∑ k, x k * d0 k := by
            rw [← Finset.sum_neg_distrib]
            exact Finset.sum_congr rfl fun k _ => by rw [Pi.neg_apply, mul_neg]
          rw [this]; linarith
      obtain ⟨t, htp, hP, hss⟩ := move a w l d hl hd hit
      have hlt := Set.ncard_lt_ncard hss
      obtain ⟨v, hv, hsp, hle⟩ := ih _ hP (by omega)
      refine ⟨v, hv, hsp, le_trans ?_ hle⟩
      refine le_trans (le_add_of_nonneg_right (mul_nonneg htp.le hpos)) (le_of_eq ?_)
      rw [Finset.mul_sum, ← Finset.sum_add_distrib]
      exact Finset.sum_congr rfl fun k _ => by simp only [Pi.add_apply, Pi.smul_apply, smul_eq_mul]; ring

/-- A vertex is determined by its tight vectors. -/
theorem vertex_unique (a : Fin N → Vec n) (w : Fin N → ℝ) (v v' : Fin n → ℝ) (J : Set (Fin N)) (hJ : Spanning a J) (h : J ⊆ tight a w v)
    (h' : J ⊆ tight a w v') : v = v' := by
  have := hJ (v - v') fun i hi => by
    rw [sub_eq_add_neg, dot_add', dot_neg, show dot (a i) v = w i from h hi, show dot (a i) v' = w i from h' hi]
    ring
  exact sub_eq_zero.1 this

/-- The cells cover the cone. -/
theorem covers (a : Fin N → Vec n) (w : Fin N → ℝ) (hspan : Spanning a Set.univ) (hne : (Poly a w).Nonempty) (x : Fin n → ℝ)
    (hx : x ∈ coneOf a Set.univ) : ∃ v ∈ Poly a w, Spanning a (tight a w v) ∧ x ∈ coneOf a (tight a w v) := by
  classical
  set V : Set (Fin n → ℝ) := {v | v ∈ Poly a w ∧ Spanning a (tight a w v)} with hV
  have hfin : V.Finite := by
    apply Set.Finite.of_injOn (f := fun v => tight a w v) (t := Set.univ) (fun _ _ => Set.mem_univ _) ?_ Set.finite_univ
    intro v hv v' hv' e
    exact vertex_unique a w v v' _ hv.2 le_rfl (le_of_eq e)
  have hVne : V.Nonempty := by
    obtain ⟨l, hl⟩ := hne
    obtain ⟨v, hv, hs, -⟩ := push a w hspan x hx N l hl (Nat.sub_le _ _)
    exact ⟨v, hv, hs⟩
  obtain ⟨v, hv, hmax⟩ := hfin.exists_maximalFor (fun v => ∑ k, x k * v k) V hVne
  refine ⟨v, hv.1, hv.2, ?_⟩
  rw [mem_coneOf_iff]
  intro d hd
  by_contra hc
  push Not at hc
  -- a small step in direction d stays inside and is better
  obtain ⟨t, htp, ht⟩ : ∃ t : ℝ, 0 < t ∧ v + t • d ∈ Poly a w := by
    have : ∀ i, ∃ t : ℝ, 0 < t ∧ ∀ s, 0 < s → s ≤ t → dot (a i) (v + s • d) ≤ w i := by
      intro i
      by_cases hi : i ∈ tight a w v
      · refine ⟨1, one_pos, fun s hs _ => ?_⟩
        rw [dot_move, show dot (a i) v = w i from hi]
        have := hd i hi
        nlinarith
      · have hlt : dot (a i) v < w i := lt_of_le_of_ne (hv.1 i) hi
        refine ⟨(w i - dot (a i) v) / (|dot (a i) d| + 1), div_pos (by linarith) (by positivity), fun s hs hle => ?_⟩
        rw [le_div_iff₀ (by positivity)] at hle
        rw [dot_move]
        have h1 := le_abs_self (dot (a i) d)
        nlinarith
    choose t htp ht using this
    by_cases hN : (Finset.univ : Finset (Fin N)).Nonempty
    · refine ⟨Finset.univ.inf' hN t, (Finset.lt_inf'_iff hN).2 fun i _ => htp i, fun i => ht i _ ((Finset.lt_inf'_iff hN).2 fun i _ => htp i)
        (Finset.inf'_le t (Finset.mem_univ i))⟩
    · refine ⟨1, one_pos, fun i => absurd ⟨i, Finset.mem_univ i⟩ hN⟩
  obtain ⟨v', hv', hs', hle⟩ := push a w hspan x hx N _ ht (Nat.sub_le _ _)
  have h1 : ∑ k, x k * (v + t • d) k = ∑ k, x k * v k + t * ∑ k, x k * d k := by
    rw [Finset.mul_sum, ← Finset.sum_add_distrib]
    exact Finset.sum_congr rfl fun k _ => by simp only [Pi.add_apply, Pi.smul_apply, smul_eq_mul]; ring
  have h2 : ∑ k, x k * v k < ∑ k, x k * v' k := lt_of_lt_of_le (by rw [h1]; nlinarith) hle
  exact absurd (hmax ⟨hv', hs'⟩ h2.le) (not_le.2 h2)

/-- On a cell the vertex is the best point. -/
theorem best (a : Fin N → Vec n) (w : Fin N → ℝ) (v v' : Fin n → ℝ) (hv' : v' ∈ Poly a w) (x : Fin n → ℝ)
    (hx : x ∈ coneOf a (tight a w v)) : ∑ k, x k * v' k ≤ ∑ k, x k * v k := by
  have := pair_coneOf hx (v' - v) fun i hi => by
    rw [sub_eq_add_neg, dot_add', dot_neg, show dot (a i) v = w i from hi]
    linarith [hv' i]
  have e : ∑ k, x k * (v' - v) k = ∑ k, x k * v' k - ∑ k, x k * v k := by
    rw [← Finset.sum_sub_distrib]
    exact Finset.sum_congr rfl fun k _ => by rw [Pi.sub_apply, mul_sub]
  rw [e] at this
  linarith

/-- Cells of different vertices have no interior point in common. -/
theorem cells_disjoint (a : Fin N → Vec n) (w : Fin N → ℝ) (v v' : Fin n → ℝ) (hv : v ∈ Poly a w) (hv' : v' ∈ Poly a w) (hne : v ≠ v') :
    interior (coneOf a (tight a w v)) ∩ interior (coneOf a (tight a w v')) = ∅ := by
  rw [Set.eq_empty_iff_forall_notMem]
  rintro x ⟨h1, h2⟩
  have hmem := Filter.inter_mem (mem_interior_iff_mem_nhds.1 h1) (mem_interior_iff_mem_nhds.1 h2)
  have hc : Continuous fun t : ℝ => x + t • (v - v') := by fun_prop
  have ht : Filter.Tendsto (fun t : ℝ => x + t • (v - v')) (nhdsWithin 0 (Set.Ioi 0)) (nhds x) := by
    have := hc.tendsto 0
    simp only [zero_smul, add_zero] at this
    exact this.mono_left nhdsWithin_le_nhds
  obtain ⟨t, hmt, htp⟩ := ((ht.eventually hmem).and self_mem_nhdsWithin).exists
  have htp' : (0 : ℝ) < t := htp
  have hx := hmem
  have e0 : ∑ k, x k * v k = ∑ k, x k * v' k :=
    le_antisymm (best a w v' v hv x (interior_subset h2)) (best a w v v' hv' x (interior_subset h1))
  have e1 := le_antisymm (best a w v' v hv _ hmt.2) (best a w v v' hv' _ hmt.1)
  have h3 : ∀ u : Fin n → ℝ, ∑ k, (x + t • (v - v')) k * u k = ∑ k, x k * u k + t * ∑ k, (v - v') k * u k := by
    intro u
    rw [Finset.mul_sum, ← Finset.sum_add_distrib]
    exact Finset.sum_congr rfl fun k _ => by simp only [Pi.add_apply, Pi.smul_apply, smul_eq_mul]; ring
  rw [h3, h3, e0, add_right_inj] at e1
  have e2 : ∑ k, (v - v') k * v k = ∑ k, (v - v') k * v' k := mul_left_cancel₀ htp'.ne' e1
  have e3 : ∑ k, (v - v') k * (v - v') k = 0 := by
    have : ∑ k, (v - v') k * (v - v') k = ∑ k, (v - v') k * v k - ∑ k, (v - v') k * v' k := by
      rw [← Finset.sum_sub_distrib]
      exact Finset.sum_congr rfl fun k _ => by simp only [Pi.sub_apply]; ring
    rw [this, e2, sub_self]
  rw [Finset.sum_eq_zero_iff_of_nonneg fun k _ => mul_self_nonneg _] at e3
  refine hne (funext fun k => ?_)
  have := mul_self_eq_zero.1 (e3 k (Finset.mem_univ k))
  rw [Pi.sub_apply] at this
  linarith

end Verif.Regular
