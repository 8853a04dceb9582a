import Verif.Whole.Canon

/-!
# C91: `count FILE` reports the number of integer points
-/

namespace Verif.Whole

open Verif.Barvinok Verif.Barvinok.Spec Verif.Ti2 Verif.Brion Verif.ExpSubst Verif.Files Verif.Preprocess

variable {n m : ℕ}

/-! ## The directions of the canonical system -/

theorem slope_nonneg {c d : ℝ} (h : ∀ t : ℝ, 0 ≤ t → 0 ≤ c + t * d) : 0 ≤ d := by
  by_contra hd
  push Not at hd
  have h1 := h ((|c| + 1) / -d) (div_nonneg (by positivity) (by linarith))
  have h2 : (|c| + 1) / -d * d = -(|c| + 1) := by
    rw [div_neg, neg_mul, div_mul_cancel₀ _ hd.ne]
  rw [h2] at h1
  have := le_abs_self c
  linarith

theorem mem_directions {P : Empty.Problem n} {x y : Fin n → ℝ} (h : ∀ t : ℝ, 0 ≤ t → x + t • y ∈ P.Solutions) : y ∈ P.Directions := by
  have e : ∀ (r : ℤ × (Fin n → ℤ)) (t : ℝ), (r.1 : ℝ) + ∑ k, (r.2 k : ℝ) * (x + t • y) k = ((r.1 : ℝ) + ∑ k, (r.2 k : ℝ) * x k) + t * ∑ k, (r.2 k : ℝ) * y k := by
    intro r t
    rw [add_assoc, Finset.mul_sum, ← Finset.sum_add_distrib]
    congr 1
    exact Finset.sum_congr rfl fun k _ => by simp only [Pi.add_apply, Pi.smul_apply, smul_eq_mul]; ring
  refine ⟨fun r hr => slope_nonneg (c := (r.1 : ℝ) + ∑ k, (r.2 k : ℝ) * x k) fun t ht => ?_, fun l hl r hr => ?_, fun k hk => slope_nonneg (c := x k) fun t ht => ?_⟩
  · rw [← e]
    exact (h t ht).1 r hr
  · have h0 := (h 0 le_rfl).2.1 l hl r hr
    have h1 := (h 1 zero_le_one).2.1 l hl r hr
    rw [e] at h0 h1
    linarith
  · have := (h t ht).2.2 k hk
    simpa [Pi.add_apply, Pi.smul_apply, smul_eq_mul] using this

theorem move_mem {ineqs : List (ℤ × Vec n)} {x y : Fin n → ℝ} (hx : x ∈ Polyhedron ineqs) (hy : ∀ q ∈ ineqs, 0 ≤ dot q.2 y) {t : ℝ} (ht : 0 ≤ t) :
    x + t • y ∈ Polyhedron ineqs := by
  intro q hq
  have h1 := hx q hq
  have h2 := mul_nonneg ht (hy q hq)
  have e : dot q.2 (x + t • y) = dot q.2 x + t * dot q.2 y := by
    unfold dot
    rw [Finset.mul_sum, ← Finset.sum_add_distrib]
    exact Finset.sum_congr rfl fun k _ => by simp only [Pi.add_apply, Pi.smul_apply, smul_eq_mul]; ring
  rw [e]
  linarith

/-! ## Independent equations -/

/-- The equations are independent over the reals. -/
def IndependentR (E : List (Row n)) : Prop := LinearIndependent ℝ fun (j : Fin E.length) (k : Fin n) => ((E.get j).a k : ℝ)

theorem IndependentR.le {E : List (Row n)} (h : IndependentR E) : E.length ≤ n := by
  have := LinearIndependent.fintype_card_le_finrank h
  simpa using this

theorem IndependentR.int {E : List (Row n)} (h : IndependentR E) : Independent fun j : Fin E.length => E.get j := by
  unfold Independent
  rw [Fintype.linearIndependent_iff]
  intro g hg i
  have := Fintype.linearIndependent_iff.1 h (fun i => (g i : ℝ)) (by
    funext k
    have := congrFun hg k
    simp only [Finset.sum_apply, Pi.smul_apply, smul_eq_mul, Pi.zero_apply] at this ⊢
    exact_mod_cast this) i
  exact_mod_cast this

/-- As many independent equations as variables have at most one solution. -/
theorem unique_solution {E : List (Row n)} (h : IndependentR E) (hn : E.length = n) {x y : Fin n → ℝ} (hx : ∀ r ∈ E, (r.b : ℝ) + dot r.a x = 0)
    (hy : ∀ r ∈ E, (r.b : ℝ) + dot r.a y = 0) : x = y := by
  have hspan := h.span_eq_top_of_card_eq_finrank' (by simpa using hn)
  -- the functional `v ↦ v · (x - y)` vanishes on the span
  have hz : ∀ v ∈ Submodule.span ℝ (Set.range fun (j : Fin E.length) (k : Fin n) => ((E.get j).a k : ℝ)), ∑ k, v k * (x k - y k) = 0 := by
    intro v hv
    induction hv using Submodule.span_induction with
    | mem v hv =>
      obtain ⟨j, rfl⟩ := hv
      have h1 := hx _ (List.get_mem E j)
      have h2 := hy _ (List.get_mem E j)
      unfold dot at h1 h2
      simp only [mul_sub, Finset.sum_sub_distrib]
      linarith
    | zero => simp
    | add u w _ _ hu hw => simp only [Pi.add_apply, add_mul, Finset.sum_add_distrib, hu, hw, add_zero]
    | smul c u _ hu => simp only [Pi.smul_apply, smul_eq_mul, mul_assoc, ← Finset.mul_sum, hu, mul_zero]
  have h0 := hz (x - y) (by rw [hspan]; trivial)
  have h1 := (Finset.sum_eq_zero_iff_of_nonneg fun k _ => mul_self_nonneg (x k - y k)).1 h0
  funext k
  have := mul_self_eq_zero.1 (h1 k (Finset.mem_univ k))
  linarith

/-! ## The elimination -/

theorem solutions_iff (E I : List (Row n)) (z : Fin n → ℤ) :
    z ∈ solutions (fun j : Fin E.length => E.get j) I 1 ↔ (fun k => (z k : ℝ)) ∈ Polyhedron (both E I) := by
  rw [mem_both]
  have e : ∀ r : Row n, (r.b : ℝ) + dot r.a (fun k => (z k : ℝ)) = ((r.eval 1 z : ℤ) : ℝ) := by
    intro r
    unfold dot Row.eval
    push_cast
    ring
  unfold solutions
  simp only [Set.mem_ofPred_eq, e]
  constructor
  · rintro ⟨h1, h2⟩
    refine ⟨fun r hr => ?_, fun r hr => by exact_mod_cast h2 r hr⟩
    obtain ⟨j, rfl⟩ := List.get_of_mem hr
    exact_mod_cast h1 j
  · rintro ⟨h1, h2⟩
    exact ⟨fun j => by exact_mod_cast h1 _ (List.get_mem E j), fun r hr => by exact_mod_cast h2 r hr⟩

theorem no_inequalities {fuel : ℕ} (hm : m = n) (eqs : Fin m → Row n) (cost : Fin n → ℤ) (dil : ℤ) (hi : Independent eqs) :
    preprocessProblem fuel eqs [] cost dil = .count (solutions eqs [] 1).ncard := by
  subst hm
  exact c67_no_inequalities cost dil hi

theorem project_number {T : Tools} (hT : T.Ok) {L : Limits} (h0 : L.maxDet ≠ 0) (hmax : L.maxDet ≤ Piped.intMax) (hfuel : L.maxDet < L.fuel)
    (E I : List (Row n)) (hind : IndependentR E) (hdir : ∀ y : Fin n → ℝ, (∀ q ∈ both E I, 0 ≤ dot q.2 y) → y = 0) (hpoint : E.length = n → I = [])
    {r : ℤ} (h : projectAndCount T L n E I = .number r) : r = (solutions (fun j : Fin E.length => E.get j) I 1).ncard := by
  unfold projectAndCount at h
  have hb := bounded_of_directions _ hdir
  by_cases hE : E = []
  · rw [if_pos hE] at h
    subst hE
    have hb' : Bornology.IsBounded (Polyhedron (pairs I)) := by
      have : both [] I = pairs I := rfl
      rwa [this] at hb
    rw [countRows_number hT h0 hmax hfuel I hb' h]
    congr 2
    ext z
    exact ⟨fun hz => ⟨fun j => j.elim0, hz⟩, fun hz => hz.2⟩
  · rw [if_neg hE] at h
    have hfin : (solutions (fun j : Fin E.length => E.get j) I 1).Finite := by
      refine (finite_of_bounded hb).subset fun z hz => ?_
      exact (solutions_iff E I z).1 hz
    by_cases hI : I = []
    · subst hI
      by_cases hn : E.length = n
      · rw [no_inequalities hn _ _ _ hind.int] at h
        exact (Ending.number.inj h).symm
      · rw [(c67_not_bounded (fuel := L.hermite) (eqs := fun j : Fin E.length => E.get j) 0 1 (lt_of_le_of_ne hind.le hn)).1] at h
        cases h
    · have hlt : E.length < n := lt_of_le_of_ne hind.le fun hh => hI (hpoint hh)
      cases hrun : preprocessProblem L.hermite (fun j : Fin E.length => E.get j) I 0 1 with
      | count k =>
        rw [hrun] at h
        rw [c67_reported_count hI hlt (Or.inr ⟨hind.int, rfl⟩) hfin hrun]
        exact (Ending.number.inj h).symm
      | notBounded => rw [hrun] at h; cases h
      | crash => rw [hrun] at h; cases h
      | fuel => rw [hrun] at h; cases h
      | reduced d out p B c =>
        rw [hrun] at h
        have hb' : Bornology.IsBounded (Polyhedron (pairs out)) := by
          refine bounded_of_directions _ fun y hy => reduced_directions hI hlt.le (fun y h1 h2 => hdir y ((dir_both E I y).2 ⟨fun r hr => ?_, h2⟩)) hrun y fun r hr => ?_
          · obtain ⟨j, rfl⟩ := List.get_of_mem hr
            exact h1 j
          · exact hy (r.b, r.a) (List.mem_map.2 ⟨r, hr, rfl⟩)
        rw [countRows_number hT h0 hmax hfuel out hb' h, c67_ncard hI hlt.le (Or.inr hind.int) hrun]

/-! ## From the text to the number -/

theorem countMatrix_eq {T : Tools} {L : Limits} {M : LMatrix} (hc : (T.canonicalize M).colsize - 1 = n) (h : ∀ r ∈ (T.canonicalize M).rows, Integral r) :
    countMatrix T L M = projectAndCount T L n ((part (T.canonicalize M) true).map (intRow n)) ((part (T.canonicalize M) false).map (intRow n)) := by
  unfold countMatrix
  subst hc
  rw [splitRows_eq _ h]

/-- What the canonical matrix gives. -/
structure Split (P : Empty.Problem n) (E I : List (Row n)) : Prop where
  solutions : Polyhedron (both E I) = P.Solutions
  independent : IndependentR E
  irredundant : ∀ l₁ r l₂, I = l₁ ++ r :: l₂ → ∃ x ∈ Polyhedron (both E (l₁ ++ l₂)), (r.b : ℝ) + dot r.a x < 0

theorem split_canonical (P : Empty.Problem n) (h : P.Ok) {M' : LMatrix} (hc : Canonical n (matrix P) M') :
    Split P ((part M' true).map (intRow n)) ((part M' false).map (intRow n)) := by
  have hint : ∀ r ∈ M'.rows, Integral r := fun r hr => matrix_integral P r (hc.rows r hr)
  have hpart : ∀ e, ∀ r ∈ part M' e, Integral r := fun e r hr => hint r (part_mem hr)
  refine ⟨?_, ?_, ?_⟩
  · rw [← sols_both (hpart true) (hpart false), hc.same, sols_matrix P h]
  · unfold IndependentR
    have hlen : ((part M' true).map (intRow n)).length = (part M' true).length := List.length_map _
    have e : (fun (j : Fin ((part M' true).map (intRow n)).length) (k : Fin n) => ((((part M' true).map (intRow n)).get j).a k : ℝ)) =
        (fun (i : Fin (part M' true).length) (k : Fin n) => rawR (((part M' true).get i).getD (k + 1) (0, 1))) ∘ Fin.cast hlen := by
      funext j k
      simp only [Function.comp_apply, List.get_eq_getElem, List.getElem_map]
      rw [getD_integral (hpart true _ (List.getElem_mem _))]
      rfl
    rw [e]
    exact hc.independent.comp _ (Fin.cast_injective _)
  · intro l₁ r l₂ hl
    obtain ⟨a, c, hac, ha, hcr⟩ := List.map_eq_append_iff.1 hl
    obtain ⟨r', c', rfl, hr, hc'⟩ := List.map_eq_cons_iff.1 hcr
    obtain ⟨x, hx, hv⟩ := hc.irredundant a r' c' hac
    have hmem : ∀ q ∈ a ++ c', Integral q := by
      intro q hq
      refine hpart false q ?_
      rw [hac]
      rcases List.mem_append.1 hq with hq | hq
      · exact List.mem_append_left _ hq
      · exact List.mem_append_right _ (List.mem_cons_of_mem _ hq)
    refine ⟨x, ?_, ?_⟩
    · rw [sols_both (hpart true) hmem] at hx
      rwa [← ha, ← hc', ← List.map_append]
    · rw [value_intRow (hpart false r' (by rw [hac]; simp))] at hv
      rwa [← hr]

theorem split_exists {T : Tools} (hT : T.Ok) (P : Empty.Problem n) (h : P.Ok) (hne : P.Solutions.Nonempty) (L : Limits) :
    ∃ E I : List (Row n), Split P E I ∧ countMatrix T L (matrix P) = projectAndCount T L n E I := by
  have hc : Canonical n (matrix P) (T.canonicalize (matrix P)) := hT.canonicalize n (matrix P) rfl rfl (matrix_length P) (by rw [sols_matrix P h]; exact hne)
  exact ⟨_, _, split_canonical P h hc, countMatrix_eq (by rw [hc.cols]; rfl) fun r hr => matrix_integral P r (hc.rows r hr)⟩

theorem Split.directions {P : Empty.Problem n} {E I : List (Row n)} (h : Split P E I) (hne : P.Solutions.Nonempty) (hd : P.Directions = {0}) (y : Fin n → ℝ)
    (hy : ∀ q ∈ both E I, 0 ≤ dot q.2 y) : y = 0 := by
  obtain ⟨x, hx⟩ := hne
  rw [← h.solutions] at hx
  have : y ∈ P.Directions := mem_directions (x := x) fun t ht => by
    rw [← h.solutions]
    exact move_mem hx hy ht
  rw [hd] at this
  exact this

theorem Split.point {P : Empty.Problem n} {E I : List (Row n)} (h : Split P E I) (hne : P.Solutions.Nonempty) (hn : E.length = n) : I = [] := by
  by_contra hI
  obtain ⟨r, I', rfl⟩ := List.exists_cons_of_ne_nil hI
  obtain ⟨x, hx, hlt⟩ := h.irredundant [] r I' rfl
  obtain ⟨x0, hx0⟩ := hne
  rw [← h.solutions, mem_both] at hx0
  rw [mem_both] at hx
  have := unique_solution h.independent hn hx.1 hx0.1
  subst this
  have := hx0.2 r (by simp)
  linarith

theorem integerPoints_iff (P : Empty.Problem n) (z : Fin n → ℤ) : z ∈ integerPoints P ↔ (fun k => (z k : ℝ)) ∈ P.Solutions := by
  have e : ∀ r : ℤ × (Fin n → ℤ), (r.1 : ℝ) + ∑ k, (r.2 k : ℝ) * (z k : ℝ) = ((r.1 + ∑ k, r.2 k * z k : ℤ) : ℝ) := by
    intro r
    push_cast
    rfl
  unfold integerPoints Empty.Problem.Solutions
  simp only [Set.mem_ofPred_eq, e]
  exact_mod_cast Iff.rfl

theorem Split.ncard {P : Empty.Problem n} {E I : List (Row n)} (h : Split P E I) : Preprocess.solutions (fun j : Fin E.length => E.get j) I 1 = integerPoints P := by
  ext z
  rw [solutions_iff, integerPoints_iff, h.solutions]

/-- The file is small enough for the `int` variables of the reader. -/
structure Small (P : Empty.Problem n) : Prop where
  rows : P.rows.length < 2 ^ 31
  cols : n + 1 < 2 ^ 31
  nonneg : (P.nonnegative.getD []).length < 2 ^ 31

/-- What happens for an empty polytope, and for one that is not empty. -/
theorem countFile_eq {T : Tools} (hT : T.Ok) (L : Limits) (P : Empty.Problem n) (h : P.Ok) (hs : Small P) (h0 : P.rows ≠ [] ∨ n = 0) (hf : P.nonnegFirst = false) :
    (P.Solutions.Nonempty → countFile T L (text P) = countMatrix T L (matrix P)) ∧
    (P.Solutions = ∅ → P.Directions = {0} → countFile T L (text P) = .number 0) := by
  obtain ⟨h1, h2⟩ := Empty.c86_decides T.lp hT.lp P h h0 (by rw [hf]; simp)
  constructor
  · intro hne
    unfold countFile
    rw [tokens_text P hf, h1 hne, read_text P h hs.rows hs.cols hs.nonneg]
  · intro he hd
    unfold countFile
    rw [tokens_text P hf, h2 he hd]
    rfl

/-- **C91: the number reported for a file is the number of integer points.**  For every file in LattE format that describes a polytope or an empty set by inequalities, equations and
nonnegative variables, run with `--exp` and otherwise default options: whatever the random numbers and triangulations are, if the program reports a number, it is the number of
integer points that meet all conditions of the file. -/
theorem c91_count {T : Tools} (hT : T.Ok) {L : Limits} (hdet : L.maxDet ≠ 0) (hmax : L.maxDet ≤ Piped.intMax) (hfuel : L.maxDet < L.fuel)
    (P : Empty.Problem n) (h : P.Ok) (hs : Small P) (h0 : P.rows ≠ [] ∨ n = 0) (hf : P.nonnegFirst = false) (hd : P.Directions = {0})
    {r : ℤ} (hr : countFile T L (text P) = .number r) : r = (integerPoints P).ncard := by
  obtain ⟨h1, h2⟩ := countFile_eq hT L P h hs h0 hf
  by_cases hne : P.Solutions.Nonempty
  · rw [h1 hne] at hr
    obtain ⟨E, I, hsplit, he⟩ := split_exists hT P h hne L
    rw [he] at hr
    rw [project_number hT hdet hmax hfuel E I hsplit.independent (hsplit.directions hne hd) (hsplit.point hne) hr, hsplit.ncard]
  · rw [Set.not_nonempty_iff_eq_empty] at hne
    rw [h2 hne hd] at hr
    obtain rfl := Ending.number.inj hr
    have : integerPoints P = ∅ := by
      ext z
      rw [integerPoints_iff, hne]
      simp
    rw [this]
    simp

end Verif.Whole
