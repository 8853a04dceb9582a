import Verif.Whole.Total
import Verif.Empty.Example
import Verif.CddV.Primal
import Verif.Regular.Contracts
import Verif.Regular.Props
import Verif.Barvinok.Exists

/-!
# C91: the contracts can be met
-/

namespace Verif.Whole

open Verif.Barvinok Verif.Barvinok.Spec Verif.Ti2 Verif.Brion Verif.ExpSubst Verif.Files Verif.Preprocess

variable {n m : ℕ}

/-! ## `dd_MatrixCanonicalize` -/

/-- The matrix with given equations and inequalities. -/
def ofParts (M : LMatrix) (E I : List (List RawQ)) : LMatrix :=
  { rowsize := E.length + I.length, colsize := M.colsize, generator := false, rows := E ++ I, linset := Finset.Icc 1 E.length }

theorem part_ofParts (M : LMatrix) (E I : List (List RawQ)) : part (ofParts M E I) true = E ∧ part (ofParts M E I) false = I := by
  unfold part ofParts
  have h1 : ∀ p ∈ E.zipIdx 0, p.2 + 1 ∈ Finset.Icc 1 E.length := by
    rintro ⟨r, i⟩ hp
    have := (List.mem_zipIdx hp).2.1
    rw [Finset.mem_Icc]
    show 1 ≤ i + 1 ∧ i + 1 ≤ _
    omega
  have h2 : ∀ p ∈ I.zipIdx (0 + E.length), p.2 + 1 ∉ Finset.Icc 1 E.length := by
    rintro ⟨r, i⟩ hp
    have := (List.mem_zipIdx hp).1
    rw [Finset.mem_Icc]
    show ¬ (1 ≤ i + 1 ∧ i + 1 ≤ _)
    omega
  constructor
  · rw [List.zipIdx_append, List.filter_append, List.filter_eq_self.2 (fun p hp => by simpa using h1 p hp),
      List.filter_eq_nil_iff.2 (fun p hp => by simpa using h2 p hp), List.append_nil, List.zipIdx_map_fst]
  · rw [List.zipIdx_append, List.filter_append, List.filter_eq_nil_iff.2 (fun p hp => by simpa using h1 p hp),
      List.filter_eq_self.2 (fun p hp => by simpa using h2 p hp), List.nil_append, List.zipIdx_map_fst]

/-- A canonical form whose inequalities are taken from a given list. -/
theorem canonical_exists_in (M : LMatrix) (hne : (Sols n (part M true) (part M false)).Nonempty) (E₀ I₀ : List (List RawQ)) (h₀ : ∀ r ∈ E₀ ++ I₀, r ∈ M.rows)
    (hs₀ : Sols n E₀ I₀ = Sols n (part M true) (part M false)) : ∃ M', Canonical n M M' ∧ ∀ r ∈ part M' false, r ∈ I₀ := by
  classical
  set Q : ℕ → Prop := fun N => ∃ E I : List (List RawQ), E.length + I.length = N ∧ (∀ r ∈ E ++ I, r ∈ M.rows) ∧ (∀ r ∈ I, r ∈ I₀) ∧
    Sols n E I = Sols n (part M true) (part M false) with hQ
  have hex : ∃ N, Q N := ⟨_, E₀, I₀, rfl, h₀, fun _ h => h, hs₀⟩
  obtain ⟨E, I, hlen, hrows, hin, hsame⟩ := Nat.find_spec hex
  have hmin : ∀ E' I' : List (List RawQ), (∀ r ∈ E' ++ I', r ∈ M.rows) → (∀ r ∈ I', r ∈ I) → Sols n E' I' = Sols n (part M true) (part M false) →
      E.length + I.length ≤ E'.length + I'.length := by
    intro E' I' h1 h3 h2
    rw [hlen]
    exact Nat.find_min' hex ⟨E', I', rfl, h1, fun r hr => hin r (h3 r hr), h2⟩
  obtain ⟨p1, p2⟩ := part_ofParts M E I
  refine ⟨ofParts M E I, ⟨rfl, hrows, by rw [p1, p2, hsame], ?_, ?_⟩, by rw [p2]; exact hin⟩
  · have key : LinearIndependent ℝ fun (i : Fin E.length) (k : Fin n) => rawR ((E.get i).getD (k + 1) (0, 1)) := by
      rw [Fintype.linearIndependent_iff]
      intro g hg
      by_contra hnot
      push Not at hnot
      obtain ⟨i0, hi0⟩ := hnot
      obtain ⟨x0, hx0⟩ := hne
      rw [← hsame] at hx0
      have hval : ∀ x : Fin n → ℝ, ∑ i, g i * value (E.get i) x = ∑ i, g i * rawR ((E.get i).getD 0 (0, 1)) := by
        intro x
        have : ∀ i, g i * value (E.get i) x = g i * rawR ((E.get i).getD 0 (0, 1)) + ∑ k : Fin n, (g i * rawR ((E.get i).getD (k + 1) (0, 1))) * x k := by
          intro i
          unfold value
          rw [mul_add, Finset.mul_sum]
          congr 1
          exact Finset.sum_congr rfl fun k _ => by ring
        simp only [this, Finset.sum_add_distrib]
        rw [Finset.sum_comm]
        have hz : ∀ k : Fin n, ∑ i, (g i * rawR ((E.get i).getD (k + 1) (0, 1))) * x k = 0 := by
          intro k
          have := congrFun hg k
          simp only [Finset.sum_apply, Pi.smul_apply, smul_eq_mul, Pi.zero_apply] at this
          rw [← Finset.sum_mul, this, zero_mul]
        simp only [hz, Finset.sum_const_zero, add_zero]
      have hsum0 : ∑ i, g i * rawR ((E.get i).getD 0 (0, 1)) = 0 := by
        rw [← hval x0]
        exact Finset.sum_eq_zero fun i _ => by rw [hx0.1 _ (List.get_mem E i), mul_zero]
      -- drop the row `i0`
      have hdrop : Sols n (E.eraseIdx i0) I = Sols n E I := by
        ext x
        constructor
        · rintro ⟨h1, h2⟩
          have hother : ∀ i, i ≠ i0 → value (E.get i) x = 0 := by
            intro i hi
            refine h1 _ ?_
            rw [List.mem_eraseIdx_iff_getElem]
            exact ⟨i, i.2, fun h => hi (Fin.ext h), rfl⟩
          have h0 : value (E.get i0) x = 0 := by
            have := (hval x).trans hsum0
            rw [Finset.sum_eq_single i0 (fun i _ hi => by rw [hother i hi, mul_zero]) (by simp)] at this
            exact (mul_eq_zero.1 this).resolve_left hi0
          refine ⟨fun r hr => ?_, h2⟩
          obtain ⟨i, rfl⟩ := List.get_of_mem hr
          by_cases hi : i = i0
          · rw [hi]; exact h0
          · exact hother i hi
        · rintro ⟨h1, h2⟩
          exact ⟨fun r hr => h1 r (List.mem_of_mem_eraseIdx hr), h2⟩
      have := hmin (E.eraseIdx i0) I (fun r hr => by
        rcases List.mem_append.1 hr with h | h
        · exact hrows r (List.mem_append_left _ (List.mem_of_mem_eraseIdx h))
        · exact hrows r (List.mem_append_right _ h)) (fun _ h => h) (by rw [hdrop, hsame])
      rw [List.length_eraseIdx_of_lt i0.2] at this
      have := i0.2
      omega
    rw [p1]
    exact key
  · rw [p1, p2]
    intro l₁ r l₂ hl
    by_contra hnot
    push Not at hnot
    have hdrop : Sols n E (l₁ ++ l₂) = Sols n E I := by
      ext x
      constructor
      · intro hx
        refine ⟨hx.1, fun q hq => ?_⟩
        rw [hl] at hq
        rcases List.mem_append.1 hq with h | h
        · exact hx.2 q (List.mem_append_left _ h)
        · rcases List.mem_cons.1 h with rfl | h
          · exact hnot x hx
          · exact hx.2 q (List.mem_append_right _ h)
      · rintro ⟨h1, h2⟩
        refine ⟨h1, fun q hq => h2 q ?_⟩
        rw [hl]
        rcases List.mem_append.1 hq with h | h
        · exact List.mem_append_left _ h
        · exact List.mem_append_right _ (List.mem_cons_of_mem _ h)
    have := hmin E (l₁ ++ l₂) (fun q hq => hrows q (by
      rw [hl]
      rcases List.mem_append.1 hq with h | h
      · exact List.mem_append_left _ h
      · rcases List.mem_append.1 h with h | h
        · exact List.mem_append_right _ (List.mem_append_left _ h)
        · exact List.mem_append_right _ (List.mem_append_right _ (List.mem_cons_of_mem _ h)))) (fun q hq => by
      rw [hl]
      rcases List.mem_append.1 hq with h | h
      · exact List.mem_append_left _ h
      · exact List.mem_append_right _ (List.mem_cons_of_mem _ h)) (by rw [hdrop, hsame])
    rw [hl] at this
    simp at this

theorem value_midpoint (r : List RawQ) (x y : Fin n → ℝ) : value r (fun k => (x k + y k) / 2) = (value r x + value r y) / 2 := by
  unfold value
  have e : ∑ k : Fin n, rawR (r.getD (k + 1) (0, 1)) * ((x k + y k) / 2) =
      (∑ k : Fin n, rawR (r.getD (k + 1) (0, 1)) * x k + ∑ k : Fin n, rawR (r.getD (k + 1) (0, 1)) * y k) / 2 := by
    rw [← Finset.sum_add_distrib, Finset.sum_div]
    exact Finset.sum_congr rfl fun k _ => by ring
  rw [e]
  ring

/-- Inequalities each of which is strict somewhere are all strict somewhere. -/
theorem strict_point (E I : List (List RawQ)) (hne : (Sols n E I).Nonempty) : ∀ I' : List (List RawQ), (∀ r ∈ I', r ∈ I) → (∀ r ∈ I', ∃ x ∈ Sols n E I, 0 < value r x) →
    ∃ x ∈ Sols n E I, ∀ r ∈ I', 0 < value r x := by
  intro I'
  induction I' with
  | nil => exact fun _ _ => ⟨hne.some, hne.some_mem, by simp⟩
  | cons r rs ih =>
    intro hsub hex
    obtain ⟨x, hx, hxs⟩ := ih (fun q hq => hsub q (List.mem_cons_of_mem _ hq)) fun q hq => hex q (List.mem_cons_of_mem _ hq)
    obtain ⟨y, hy, hyr⟩ := hex r List.mem_cons_self
    refine ⟨fun k => (x k + y k) / 2, ⟨fun q hq => ?_, fun q hq => ?_⟩, fun q hq => ?_⟩
    · rw [value_midpoint, hx.1 q hq, hy.1 q hq]
      norm_num
    · rw [value_midpoint]
      have h1 := hx.2 q hq
      have h2 := hy.2 q hq
      linarith
    · rw [value_midpoint]
      rcases List.mem_cons.1 hq with rfl | hq
      · have := hx.2 q (hsub q List.mem_cons_self)
        linarith
      · have h1 := hxs q hq
        have h2 := hy.2 q (hsub q (List.mem_cons_of_mem _ hq))
        linarith

theorem canonical_exists (M : LMatrix) (hne : (Sols n (part M true) (part M false)).Nonempty) :
    ∃ M', Canonical n M M' ∧ ∃ x ∈ Sols n (part M' true) (part M' false), ∀ r ∈ part M' false, 0 < value r x := by
  classical
  set S := Sols n (part M true) (part M false) with hS
  set I₀ := (part M false).filter fun r => ∃ x ∈ S, 0 < value r x with hI₀
  set E₀ := part M true ++ (part M false).filter fun r => ¬ ∃ x ∈ S, 0 < value r x with hE₀
  obtain ⟨M', hM', hsub⟩ := canonical_exists_in M hne E₀ I₀ (by
    intro r hr
    rw [hE₀, hI₀, List.mem_append, List.mem_append, List.mem_filter, List.mem_filter] at hr
    rcases hr with (h | h) | h
    · exact part_mem h
    · exact part_mem h.1
    · exact part_mem h.1) (by
    ext x
    rw [← hS]
    constructor
    · rintro ⟨h1, h2⟩
      refine ⟨fun r hr => h1 r (List.mem_append_left _ hr), fun r hr => ?_⟩
      by_cases h : ∃ x ∈ S, 0 < value r x
      · exact h2 r (List.mem_filter.2 ⟨hr, by simpa using h⟩)
      · exact (h1 r (List.mem_append_right _ (List.mem_filter.2 ⟨hr, by simpa using h⟩))).ge
    · intro hx
      refine ⟨fun r hr => ?_, fun r hr => hx.2 r (List.mem_filter.1 hr).1⟩
      rcases List.mem_append.1 hr with h | h
      · exact hx.1 r h
      · obtain ⟨h1, h2⟩ := List.mem_filter.1 h
        simp only [not_exists, not_and, decide_eq_true_eq] at h2
        exact le_antisymm (not_lt.1 (h2 x hx)) (hx.2 r h1))
  refine ⟨M', hM', ?_⟩
  rw [hM'.same]
  refine strict_point _ _ hne _ (fun r hr => (List.mem_filter.1 (hsub r hr)).1) fun r hr => ?_
  have := (List.mem_filter.1 (hsub r hr)).2
  exact of_decide_eq_true this

theorem canonicalizeOk_satisfiable : ∃ f, CanonicalizeOk f ∧ CanonicalizeStrict f := by
  classical
  have h : ∀ M : LMatrix, ∃ M', ∀ n, M.colsize = n + 1 → (Sols n (part M true) (part M false)).Nonempty →
      Canonical n M M' ∧ ∃ x ∈ Sols n (part M' true) (part M' false), ∀ r ∈ part M' false, 0 < value r x := by
    intro M
    by_cases hc : ∃ n, M.colsize = n + 1 ∧ (Sols n (part M true) (part M false)).Nonempty
    · obtain ⟨n, hn, hne⟩ := hc
      obtain ⟨M', hM'⟩ := canonical_exists M hne
      refine ⟨M', fun n' hn' _ => ?_⟩
      have : n' = n := by omega
      subst this
      exact hM'
    · exact ⟨M, fun n hn hne => absurd ⟨n, hn, hne⟩ hc⟩
  choose f hf using h
  exact ⟨f, fun n M _ hc _ hne => (hf M n hc hne).1, fun n M _ hc _ hne => (hf M n hc hne).2⟩

/-! ## Triangulations -/

theorem triangulation_exists (rays : List (Vec (m + 1))) (hs : Regular.Spans rays) :
    ∃ parts : List (List (Vec (m + 1))), Regular.Subdivides parts (Regular.generated rays) ∧ (∀ p ∈ parts, p.length = m + 1) ∧ ∀ p ∈ parts, ∀ r ∈ p, r ∈ rays := by
  classical
  obtain ⟨dd, hdd⟩ := Regular.ddOk_satisfiable
  have hN : 0 < rays.length := by
    rw [List.length_pos_iff]
    rintro rfl
    have := congrFun (hs (fun _ => 1) (by simp)) 0
    norm_num at this
  set M := rays.length.choose (m + 1 + 1) + 1 with hM
  have hcount := Regular.generic_count rays M
  have hex : ∃ w : Fin rays.length → Fin M, Regular.GenericHeights rays (List.ofFn fun i => ((w i : ℕ) : ℤ) + 1) := by
    by_contra hn
    push Not at hn
    rw [Finset.filter_true_of_mem fun w _ => hn w, Finset.card_univ, Fintype.card_fun, Fintype.card_fin, Fintype.card_fin] at hcount
    have e : M ^ rays.length = M * M ^ (rays.length - 1) := by
      conv_lhs => rw [show rays.length = rays.length - 1 + 1 by omega, pow_succ]
      ring
    rw [e] at hcount
    have := Nat.le_of_mul_le_mul_right hcount (pow_pos (by omega) _)
    omega
  obtain ⟨w, hw⟩ := hex
  have hsub := Regular.cdd_subdivides dd hdd rays hs (List.ofFn fun i => ((w i : ℕ) : ℤ) + 1) ⟨0, fun i => by
    have e : (List.ofFn fun i : Fin rays.length => ((w i : ℕ) : ℤ) + 1).getD i 0 = ((w i : ℕ) : ℤ) + 1 := by
      rw [List.getD_eq_getElem?_getD, List.getElem?_eq_getElem (by simp)]
      simp
    unfold Regular.heightOf
    rw [e]
    simp [dot]
    positivity⟩
  refine ⟨_, hsub, fun c hc => le_antisymm (Regular.cdd_cell_le dd hdd rays hs _ hw c hc) (hsub.spans c hc).le_length, fun c hc r hr => ?_⟩
  obtain ⟨row, -, rfl⟩ := List.mem_map.1 hc
  unfold Regular.cellOf at hr
  rw [Regular.coneFromRaySet_mem] at hr
  rcases hr with hr | ⟨i, -, rfl⟩
  · simp at hr
  · exact List.get_mem _ _

/-- **All contracts together can be met**, by a triangulation that uses only the rays of the cone. -/
theorem tools_satisfiable_uses : ∃ T : Tools, T.Ok ∧ (∀ d, ShortVectors (T.ntl d)) ∧ TriangulationTotal T ∧ CanonicalizeStrict T.canonicalize ∧
    ∀ d t (l : List (Vec (d + 1))) k parts k', Regular.Spans l → T.triangulate d t l k = .ok (parts, k') → ∀ p ∈ parts, ∀ r ∈ p, r ∈ l := by
  classical
  obtain ⟨lp, hlp⟩ := Empty.cddOk_satisfiable
  obtain ⟨can, hcan, hstrict⟩ := canonicalizeOk_satisfiable
  have hv : ∀ d, ∀ ineqs : List (ℤ × Vec d), ∃ p : List (List ℚ) × List CddV.Tok, CddV.CddOk ineqs p.1 p.2 := fun d ineqs => by
    obtain ⟨r, e, h⟩ := CddV.cddOk_satisfiable ineqs
    exact ⟨(r, e), h⟩
  choose ver hver using hv
  have hn : ∀ d, ∃ N : Ntl (d + 1), N.Ok ∧ ShortVectors N := fun d => by
    obtain ⟨N, h1, h2⟩ := shortestRow_satisfiable (d + 1)
    exact ⟨N, h1, shortVectors_shortestRow N h1 h2⟩
  choose ntl hntl using hn
  have ht : ∀ d, ∀ rays : List (Vec (d + 1)), ∃ parts : List (List (Vec (d + 1))), Regular.Spans rays →
      Regular.Subdivides parts (Regular.generated rays) ∧ (∀ p ∈ parts, p.length = d + 1) ∧ ∀ p ∈ parts, ∀ r ∈ p, r ∈ rays := fun d rays => by
    by_cases hs : Regular.Spans rays
    · obtain ⟨p, hp⟩ := triangulation_exists rays hs
      exact ⟨p, fun _ => hp⟩
    · exact ⟨[], fun h => absurd h hs⟩
  choose tri htri using ht
  obtain ⟨rays, -⟩ := raysOk_satisfiable
  refine ⟨⟨lp, can, ver, rays, ntl, ⟨fun a b => (Int.gcd a b, Int.gcdA a b, Int.gcdB a b), fun _ _ => rfl, fun a b => (Int.gcd_eq_gcd_ab a b).symm⟩, fun _ _ => 0, fun d _ l k => .ok (tri d l, k), fun _ _ => 0⟩, ⟨hlp, hcan, hver, fun d => (hntl d).1, ?_⟩,
    fun d => (hntl d).2, ?_, hstrict, ?_⟩
  · intro d t l k parts k' hs h
    cases h
    exact (htri d l hs).1
  · intro d t l hs k
    exact ⟨_, _, rfl, (htri d l hs).2.1⟩
  · intro d t l k parts k' hs h
    cases h
    exact (htri d l hs).2.2

theorem tools_satisfiable_strict : ∃ T : Tools, T.Ok ∧ (∀ d, ShortVectors (T.ntl d)) ∧ TriangulationTotal T ∧ CanonicalizeStrict T.canonicalize := by
  obtain ⟨T, h1, h2, h3, h4, -⟩ := tools_satisfiable_uses
  exact ⟨T, h1, h2, h3, h4⟩

theorem tools_satisfiable : ∃ T : Tools, T.Ok ∧ (∀ d, ShortVectors (T.ntl d)) ∧ TriangulationTotal T := by
  obtain ⟨T, h1, h2, h3, -⟩ := tools_satisfiable_strict
  exact ⟨T, h1, h2, h3⟩

end Verif.Whole
