import Verif.Options.Props

/-!
# C96: unbounded polyhedra, with vertex cones from 4ti2
-/

namespace Verif.Options

open Verif.Barvinok Verif.Barvinok.Spec Verif.Brion Verif.Ti2 Verif.Regular Verif.Irrational Verif.Preprocess Verif.Whole
open Verif.ExpSubst (Fail)

variable {n d : ℕ}

/-- If no inequality is left after the elimination, all hold on the solutions of the equations. -/
theorem newRows_nil {p : Fin n → ℤ} {basis : Fin d → Fin n → ℤ} (y : Fin d → ℝ) (ineqs : List (Row n)) (h : newRows p basis 1 ineqs = some []) :
    ∀ r ∈ ineqs, 0 ≤ (r.b : ℝ) + dot r.a (liftReal p basis y) := by
  have key : ∀ r : Row n, ((newRow p basis 1 r).b : ℝ) + dot (newRow p basis 1 r).a y = (r.b : ℝ) + dot r.a (liftReal p basis y) := by
    intro r
    unfold newRow liftReal dot
    push_cast
    simp only [one_mul, mul_add, Finset.sum_add_distrib, Finset.mul_sum, Finset.sum_mul]
    rw [add_assoc, Finset.sum_comm (s := (Finset.univ : Finset (Fin d)))]
    congr 2
    exact Finset.sum_congr rfl fun k _ => Finset.sum_congr rfl fun j _ => by ring
  induction ineqs with
  | nil => intro r hr; cases hr
  | cons r rs ih =>
    rw [newRows] at h
    split at h
    · cases h
    · rename_i hno
      split at h
      · cases h
      · rename_i out ho
        split at h
        · cases h
        · rename_i hz
          cases h
          intro r' hr'
          rcases List.mem_cons.1 hr' with rfl | hr'
          · rw [← key]
            rw [not_not] at hz
            have hz' : ∀ j, (newRow p basis 1 r').a j = 0 := fun j =>
              abs_eq_zero.1 ((Finset.sum_eq_zero_iff_of_nonneg fun j _ => abs_nonneg _).1 hz j (Finset.mem_univ j))
            have hb : 0 ≤ (newRow p basis 1 r').b := by
              by_contra hb
              exact hno ⟨hz, not_le.1 hb⟩
            unfold dot
            simp only [hz', Int.cast_zero, zero_mul, Finset.sum_const_zero, add_zero]
            exact_mod_cast hb
          · exact ih ho r' hr'

/-- When the elimination ends the program with a number, the equations have no integer solution, whether the polyhedron is bounded or not. -/
theorem count_no_points {P : Empty.Problem n} {E I : List (Row n)} (hsplit : Split P E I) (hi : I ≠ []) (hmn : E.length < n) (hne : (Polyhedron (both E I)).Nonempty)
    {fuel k : ℕ} (hrun : preprocessProblem fuel (fun j : Fin E.length => E.get j) I 0 1 = .count k) : integerPoints P = ∅ := by
  have key : ¬ IntSolvable fun j : Fin E.length => E.get j := by
    intro hsol
    rw [preprocess_cases hi hmn.le] at hrun
    split at hrun
    · simp at hrun
    rename_i s hs'
    have h := ihermite_spec hs'
    rw [eliminate_eq hmn.le h, if_neg fun hc => hc.2 hsol] at hrun
    have hp := particular_solves hmn.le h hsol
    have hlift : ∀ x : Fin n → ℝ, (∀ r ∈ E, (r.b : ℝ) + dot r.a x = 0) → ∃ y,
        liftReal (Matrix.vecMul (forward hmn.le s.S.transpose (List.finRange E.length) 0 s.rhs) s.U) (latticeBasis s h.hn) y = x := by
      intro x hx
      generalize hP : Matrix.vecMul (forward hmn.le s.S.transpose (List.finRange E.length) 0 s.rhs) s.U = P at *
      have hpe : ∀ r ∈ E, (r.b : ℝ) + dot r.a (fun k => (P k : ℝ)) = 0 := by
        intro r hr
        obtain ⟨j, rfl⟩ := List.get_of_mem hr
        have h2 := hp j
        unfold Row.eval at h2
        unfold dot
        have : (((1 * (E.get j).b + ∑ k, (E.get j).a k * P k : ℤ)) : ℝ) = 0 := by exact_mod_cast h2
        push_cast at this
        linarith
      have hsplit : ∀ f : Vec n, dot f (fun k => x k - (P k : ℝ)) = dot f x - dot f (fun k => (P k : ℝ)) := by
        intro f
        unfold dot
        rw [← Finset.sum_sub_distrib]
        exact Finset.sum_congr rfl fun k _ => by ring
      obtain ⟨y, hy⟩ := latticeBasis_spans h (fun k => x k - (P k : ℝ)) (fun j => by
        rw [hsplit]
        have h1 := hx _ (List.get_mem E j)
        have h2 := hpe _ (List.get_mem E j)
        linarith)
      refine ⟨y, ?_⟩
      funext k
      unfold liftReal
      rw [← hy k]
      ring
    split at hrun
    · rename_i hnone
      obtain ⟨x, hx⟩ := hne
      rw [mem_both] at hx
      obtain ⟨y, hxy⟩ := hlift x hx.1
      obtain ⟨r, hr, hlt⟩ := newRows_none_real y I hnone
      rw [hxy] at hlt
      exact absurd (hx.2 r hr) (not_le.2 hlt)
    · rename_i out hout
      cases out with
      | nil =>
        obtain ⟨r, l, rfl⟩ := List.exists_cons_of_ne_nil hi
        obtain ⟨x, hx, hlt⟩ := hsplit.irredundant [] r l rfl
        rw [mem_both] at hx
        obtain ⟨y, hxy⟩ := hlift x hx.1
        have := newRows_nil y _ hout r List.mem_cons_self
        rw [hxy] at this
        linarith
      | cons r rs => simp [checkRows] at hrun
  rw [← hsplit.ncard]
  ext z
  simp only [Set.mem_empty_iff_false, iff_false]
  rintro hz
  exact key ⟨z, fun j => hz.1 j⟩

/-- **C96: unbounded polyhedra.** With vertex cones from 4ti2, a number reported is right also then: for every file whose conditions have a solution and a direction in which one can go on for ever,
a number is reported only if there is no integer point, and then it is 0.  (With cdd, C91 describes wrong numbers.) -/
theorem c96_unbounded {T : Tools} (hT : T.Ok) (ha : RaysOk T.rays) (M : Movers) (v : Variant) (L : Limits) (P : Empty.Problem n) (h : P.Ok) (hs : Small P)
    (h0 : P.rows ≠ [] ∨ n = 0) (hf : P.nonnegFirst = false)
    (hne : P.Solutions.Nonempty) {y : Fin n → ℝ} (hy : y ∈ P.Directions) (hy0 : y ≠ 0) {r : ℤ}
    (hr : countFile T M ⟨.fourTiTwo, v⟩ L (text P) = .number r) : integerPoints P = ∅ ∧ r = 0 := by
  have hrows : ∀ (d : ℕ) (l : List (Row d)), (Polyhedron (pairs l)).Nonempty → ¬ Bornology.IsBounded (Polyhedron (pairs l)) → countRows T M ⟨.fourTiTwo, v⟩ L d l ≠ .number r := by
    intro d l hne hub hr
    cases d with
    | zero => cases hr
    | succ d =>
      change countCones T M _ L d l = _ at hr
      unfold countCones vertexStage at hr
      dsimp only at hr
      cases hv : vertexCones T.rays (pairs l) with
      | error e => rw [hv] at hr; cases hr
      | ok res =>
        obtain ⟨unbounded, cones⟩ := res
        have hflag := (c83_unbounded_partial T.rays ha (pairs l) unbounded cones hv hne).2 hub
        subst hflag
        rw [hv] at hr
        dsimp only at hr
        generalize prepare T M v d (pairs l) cones = o at hr
        match o, hr with
        | .error e, hr => cases hr
        | .ok cs, hr =>
          simp only [if_true] at hr
          cases hr
  obtain ⟨h1, -⟩ := Empty.c86_decides T.lp hT.lp P h h0 (by rw [hf]; simp)
  have hc : Canonical n (matrix P) (T.canonicalize (matrix P)) := hT.canonicalize n (matrix P) rfl rfl (matrix_length P) (by rw [sols_matrix P h]; exact hne)
  have hcols : (T.canonicalize (matrix P)).colsize - 1 = n := by rw [hc.cols]; rfl
  have hint : ∀ r ∈ (T.canonicalize (matrix P)).rows, Integral r := fun r hr => matrix_integral P r (hc.rows r hr)
  have hsplit := split_canonical P h hc
  have he : fileRows T L.hermite (text P) = projectRows L.hermite n ((part (T.canonicalize (matrix P)) true).map (intRow n))
      ((part (T.canonicalize (matrix P)) false).map (intRow n)) := by
    unfold fileRows
    rw [tokens_text P hf, h1 hne, read_text P h hs.rows hs.cols hs.nonneg]
    exact matrixRows_eq hcols hint
  unfold countFile at hr
  rw [he] at hr
  clear he hcols hint hc h1
  generalize (part (T.canonicalize (matrix P)) true).map (intRow n) = E at *
  generalize (part (T.canonicalize (matrix P)) false).map (intRow n) = I at *
  obtain ⟨x, hx⟩ := id hne
  have hmove : ∀ t : ℝ, 0 ≤ t → x + t • y ∈ Polyhedron (both E I) := by
    intro t ht
    rw [hsplit.solutions]
    have e : ∀ r : ℤ × (Fin n → ℤ), (r.1 : ℝ) + ∑ k, (r.2 k : ℝ) * (x + t • y) k = ((r.1 : ℝ) + ∑ k, (r.2 k : ℝ) * x k) + t * ∑ k, (r.2 k : ℝ) * y k := by
      intro r
      rw [add_assoc, Finset.mul_sum, ← Finset.sum_add_distrib]
      congr 1
      exact Finset.sum_congr rfl fun k _ => by simp only [Pi.add_apply, Pi.smul_apply, smul_eq_mul]; ring
    refine ⟨fun r hr => ?_, fun l hl r hr => ?_, fun k hk => ?_⟩
    · rw [e]
      exact add_nonneg (hx.1 r hr) (mul_nonneg ht (hy.1 r hr))
    · rw [e, hx.2.1 l hl r hr, hy.2.1 l hl r hr, mul_zero, add_zero]
    · exact add_nonneg (hx.2.2 k hk) (mul_nonneg ht (hy.2.2 k hk))
  have hlin : ∀ (f : Vec n) (t : ℝ), dot f (x + t • y) = dot f x + t * dot f y := by
    intro f t
    unfold dot
    rw [Finset.mul_sum, ← Finset.sum_add_distrib]
    exact Finset.sum_congr rfl fun k _ => by simp only [Pi.add_apply, Pi.smul_apply, smul_eq_mul]; ring
  have hdir : ∀ q ∈ both E I, 0 ≤ dot q.2 y := by
    intro q hq
    refine slope_nonneg (c := (q.1 : ℝ) + dot q.2 x) fun t ht => ?_
    have := hmove t ht q hq
    rw [hlin] at this
    linarith
  have hx' : x ∈ Polyhedron (both E I) := by rw [hsplit.solutions]; exact hx
  have hub := unbounded_of_recession ⟨hy0, hdir⟩ hx'
  unfold projectRows at hr
  by_cases hE : E = []
  · rw [if_pos hE] at hr
    subst hE
    exact absurd hr (hrows n I ⟨x, hx'⟩ hub)
  · rw [if_neg hE] at hr
    by_cases hlen : E.length = n
    · exfalso
      rw [mem_both] at hx'
      have h1 := hmove 1 zero_le_one
      rw [mem_both] at h1
      have := unique_solution hsplit.independent hlen hx'.1 h1.1
      apply hy0
      simpa using this
    have hlt := lt_of_le_of_ne hsplit.independent.le hlen
    by_cases hI : I = []
    · subst hI
      rw [(c67_not_bounded (fuel := L.hermite) (eqs := fun j : Fin E.length => E.get j) 0 1 hlt).1] at hr
      cases hr
    · cases hrun : preprocessProblem L.hermite (fun j : Fin E.length => E.get j) I 0 1 with
      | count k =>
        rw [hrun] at hr
        dsimp only at hr
        have hk := count_zero hI hlt.le hrun
        obtain rfl := Ending.number.inj hr
        exact ⟨count_no_points hsplit hI hlt ⟨x, hx'⟩ hrun, by rw [hk]; rfl⟩
      | notBounded => rw [hrun] at hr; cases hr
      | crash => rw [hrun] at hr; cases hr
      | fuel => rw [hrun] at hr; cases hr
      | reduced d out p B c =>
        rw [hrun] at hr
        obtain ⟨h1, h2⟩ := reduced_unbounded hI hlt.le hsplit.independent hx' hy0 hdir hrun
        exact absurd hr (hrows d out h1 h2)

end Verif.Options
