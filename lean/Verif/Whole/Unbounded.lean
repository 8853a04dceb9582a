import Verif.Whole.Total

/-!
# C91: files of unbounded polyhedra
-/

namespace Verif.Whole

open Verif.Barvinok Verif.Barvinok.Spec Verif.Ti2 Verif.Brion Verif.ExpSubst Verif.Files Verif.Preprocess Matrix

variable {n m : ℕ}

theorem newRows_sub {d : ℕ} {p : Fin n → ℤ} {basis : Fin d → Fin n → ℤ} {dil : ℤ} (ineqs : List (Row n)) :
    ∀ out, newRows p basis dil ineqs = some out → ∀ r' ∈ out, ∃ r ∈ ineqs, r' = newRow p basis dil r := by
  induction ineqs with
  | nil =>
    intro out h r' hr'
    simp [newRows] at h
    subst h
    cases hr'
  | cons r rs ih =>
    intro out h r' hr'
    rw [newRows] at h
    split at h
    · cases h
    · split at h
      · cases h
      · rename_i out' ho
        split at h
        · obtain rfl := Option.some.inj h
          rcases List.mem_cons.1 hr' with rfl | hr'
          · exact ⟨r, by simp, rfl⟩
          · obtain ⟨q, hq, e⟩ := ih out' ho r' hr'
            exact ⟨q, by simp [hq], e⟩
        · obtain rfl := Option.some.inj h
          obtain ⟨q, hq, e⟩ := ih out' ho r' hr'
          exact ⟨q, by simp [hq], e⟩

/-- The basis of the lattice spans the real solutions of the homogeneous equations. -/
theorem latticeBasis_spans {eqs : Fin m → Row n} {s : HState n m} (h : HermiteSpec (matOf eqs) (fun j => (eqs j).b) s) (v : Fin n → ℝ)
    (hv : ∀ j, dot (eqs j).a v = 0) : ∃ z : Fin (n - s.crk) → ℝ, ∀ k, v k = ∑ j, z j * (latticeBasis s h.hn j k : ℝ) := by
  set U : Matrix (Fin n) (Fin n) ℝ := s.U.map (Int.cast : ℤ → ℝ) with hU
  have hd : IsUnit U.det := by
    have e : U.det = ((s.U.det : ℤ) : ℝ) := ((Int.castRingHom ℝ).map_det s.U).symm
    rw [e, isUnit_iff_ne_zero]
    exact_mod_cast h.unimodular.ne_zero
  obtain ⟨w, hw⟩ : ∃ w : Fin n → ℝ, w ᵥ* U = v := ⟨v ᵥ* U⁻¹, by rw [vecMul_vecMul, nonsing_inv_mul U hd, vecMul_one]⟩
  obtain ⟨σ, hσ, -⟩ := h.product
  have hzero : ∀ j, ∑ i, w i * (s.S i j : ℝ) = 0 := by
    intro j
    have h1 := hv (σ j)
    have h2 : ∑ i, w i * (s.S i j : ℝ) = -dot (eqs (σ j)).a v := by
      have e : ∀ i, (s.S i j : ℝ) = ∑ k, U i k * -((eqs (σ j)).a k : ℝ) := by
        intro i
        rw [hσ i j]
        push_cast
        exact Finset.sum_congr rfl fun k _ => by simp [hU, matOf]
      unfold dot
      rw [← hw]
      simp only [e, vecMul, dotProduct, Finset.mul_sum]
      rw [Finset.sum_comm, ← Finset.sum_neg_distrib]
      refine Finset.sum_congr rfl fun k _ => ?_
      rw [← Finset.sum_neg_distrib]
      exact Finset.sum_congr rfl fun i _ => by ring
    rw [h2, h1, neg_zero]
  have key : ∀ k : ℕ, ∀ i : Fin n, i.val = k → i.val < s.crk → w i = 0 := by
    intro k
    induction k using Nat.strong_induction_on with
    | _ k ih =>
      intro i hik hi
      have hm := h.hm
      have h1 := hzero ⟨i.val, by omega⟩
      rw [Finset.sum_eq_single i] at h1
      · have := h.diag i ⟨i.val, by omega⟩ rfl hi
        rcases mul_eq_zero.1 h1 with h2 | h2
        · exact h2
        · have h3 : s.S i ⟨i.val, by omega⟩ = 0 := by exact_mod_cast h2
          omega
      · intro i' _ hne
        rcases lt_or_gt_of_ne hne with hlt | hgt
        · rw [ih i'.val (by rw [← hik]; exact hlt) i' rfl (lt_trans hlt hi), zero_mul]
        · rw [h.below i' ⟨i.val, by omega⟩ hgt hi, Int.cast_zero, mul_zero]
      · intro hn; exact absurd (Finset.mem_univ i) hn
  refine ⟨fun j => w ⟨s.crk + j.val, by omega⟩, fun k => ?_⟩
  rw [← hw, vecMul, dotProduct]
  symm
  apply Finset.sum_of_injOn (fun j : Fin (n - s.crk) => (⟨s.crk + j.val, by omega⟩ : Fin n))
  · intro a _ b _ hab
    simp only [Fin.mk.injEq] at hab
    exact Fin.ext (by omega)
  · intro a _; simp
  · intro i _ hi
    have : i.val < s.crk := by
      by_contra hle
      refine hi ⟨⟨i.val - s.crk, by have := i.2; omega⟩, by simp, Fin.ext ?_⟩
      show s.crk + (i.val - s.crk) = i.val
      omega
    rw [key i.val i rfl this, zero_mul]
  · intro j _
    simp [latticeBasis, hU]

/-- The elimination loses no real point: an unbounded polyhedron stays unbounded. -/
theorem reduced_unbounded {fuel : ℕ} {E I : List (Row n)} {cost : Fin n → ℤ} (hi : I ≠ []) (hmn : E.length ≤ n) (hind : IndependentR E)
    {x y : Fin n → ℝ} (hx : x ∈ Polyhedron (both E I)) (hy0 : y ≠ 0) (hy : ∀ q ∈ both E I, 0 ≤ dot q.2 y)
    {d : ℕ} {out : List (Row d)} {p : Fin n → ℤ} {B : Fin d → Fin n → ℤ} {newCost : Fin d → ℤ}
    (hrun : preprocessProblem fuel (fun j : Fin E.length => E.get j) I cost 1 = .reduced d out p B newCost) :
    (Polyhedron (pairs out)).Nonempty ∧ ¬ Bornology.IsBounded (Polyhedron (pairs out)) := by
  have hp := (c67_lattice_points hi hmn (Or.inr hind.int) hrun).2.2.1
  rw [preprocess_cases hi hmn] at hrun
  split at hrun
  · simp at hrun
  rename_i s hs'
  have h := ihermite_spec hs'
  rw [eliminate_eq hmn h] at hrun
  split at hrun
  · simp at hrun
  split at hrun
  · simp at hrun
  rename_i out' hout
  cases out' with
  | nil => simp [checkRows] at hrun
  | cons r rs =>
    simp only [checkRows] at hrun
    cases hrun
    set P := forward hmn s.S.transpose (List.finRange E.length) 0 s.rhs ᵥ* s.U with hP
    have hcomm : ∀ (f : Vec n) (z : Fin (n - s.crk) → ℝ), dot (fun j => ∑ k, f k * latticeBasis s h.hn j k) z = dot f (fun k => ∑ j, z j * (latticeBasis s h.hn j k : ℝ)) := by
      intro f z
      unfold dot
      simp only [Finset.mul_sum, Int.cast_sum, Int.cast_mul, Finset.sum_mul]
      rw [Finset.sum_comm]
      exact Finset.sum_congr rfl fun j _ => Finset.sum_congr rfl fun k _ => by ring
    have hsplit : ∀ f : Vec n, dot f (fun k => x k - (P k : ℝ)) = dot f x - ((∑ k, f k * P k : ℤ) : ℝ) := by
      intro f
      unfold dot
      push_cast
      rw [← Finset.sum_sub_distrib]
      exact Finset.sum_congr rfl fun k _ => by ring
    rw [mem_both] at hx
    rw [dir_both] at hy
    obtain ⟨z, hz⟩ := latticeBasis_spans h (fun k => x k - (P k : ℝ)) (fun j => by
      rw [hsplit]
      have h1 := hx.1 _ (List.get_mem E j)
      have h2 := hp j
      unfold Row.eval at h2
      rw [one_mul] at h2
      have h3 : ((E.get j).b : ℝ) + ((∑ k, (E.get j).a k * P k : ℤ) : ℝ) = 0 := by exact_mod_cast h2
      linarith)
    obtain ⟨u, hu⟩ := latticeBasis_spans h y (fun j => hy.1 _ (List.get_mem E j))
    have hzmem : z ∈ Polyhedron (pairs (r :: rs)) := by
      intro q hq
      obtain ⟨r', hr', rfl⟩ := List.mem_map.1 hq
      obtain ⟨r0, hr0, rfl⟩ := newRows_sub I _ hout r' hr'
      have h1 := hx.2 r0 hr0
      show (0 : ℝ) ≤ ((newRow P (latticeBasis s h.hn) 1 r0).b : ℝ) + dot (newRow P (latticeBasis s h.hn) 1 r0).a z
      show (0 : ℝ) ≤ ((1 * (r0.b + ∑ k, r0.a k * P k) : ℤ) : ℝ) + dot (fun j => ∑ k, r0.a k * latticeBasis s h.hn j k) z
      rw [hcomm, ← funext hz, hsplit, one_mul, Int.cast_add]
      linarith
    refine ⟨⟨z, hzmem⟩, unbounded_of_recession (y := u) ⟨?_, ?_⟩ hzmem⟩
    · rintro rfl
      apply hy0
      funext k
      rw [hu k]
      simp
    · intro q hq
      obtain ⟨r', hr', rfl⟩ := List.mem_map.1 hq
      obtain ⟨r0, hr0, rfl⟩ := newRows_sub I _ hout r' hr'
      show (0 : ℝ) ≤ dot (fun j => ∑ k, r0.a k * latticeBasis s h.hn j k) u
      rw [hcomm, ← funext hu]
      exact hy.2 r0 hr0

theorem count_zero {fuel k : ℕ} {eqs : Fin m → Row n} {ineqs : List (Row n)} {cost : Fin n → ℤ} {dil : ℤ} (hi : ineqs ≠ []) (hmn : m ≤ n)
    (hrun : preprocessProblem fuel eqs ineqs cost dil = .count k) : k = 0 := by
  rw [preprocess_cases hi hmn] at hrun
  split at hrun
  · simp at hrun
  rename_i s hs'
  have h := ihermite_spec hs'
  rw [eliminate_eq hmn h] at hrun
  split at hrun
  · exact (Outcome.count.inj hrun).symm
  split at hrun
  · exact (Outcome.count.inj hrun).symm
  rename_i out' hout
  cases out' with
  | nil => exact (Outcome.count.inj hrun).symm
  | cons r rs => simp [checkRows] at hrun

theorem countRows_unbounded {T : Tools} (hT : T.Ok) (L : Limits) {d : ℕ} (rows : List (Row d)) (hne : (Polyhedron (pairs rows)).Nonempty)
    (hb : ¬ Bornology.IsBounded (Polyhedron (pairs rows))) : countRows T L d rows = .number 0 ∨ countRows T L d rows = .noNumber := by
  cases d with
  | zero =>
    exfalso
    refine hb ((Metric.isBounded_iff_subset_closedBall 0).2 ⟨0, fun x _ => ?_⟩)
    have : x = 0 := funext fun k => k.elim0
    rw [this]
    simp
  | succ d =>
    have := CddV.c88_unbounded_violation (hT.vertices (d + 1) (pairs rows)) hb hne T.rays (T.ntl d) T.xgcd (T.irr d) L.maxDet L.fuel L.tries (T.triangulate d) (T.guess d)
    unfold countRows
    change (match CddV.countCdd (T.vertices (d + 1) (pairs rows)).1 (T.vertices (d + 1) (pairs rows)).2 T.rays (T.ntl d) T.xgcd (T.irr d) L.maxDet L.fuel (pairs rows)
      L.tries (T.triangulate d) (T.guess d) with | .number k => Ending.number k | .noNumber => .noNumber | .stop => .stop | .failed e => .failed e | .undefined => .undefined)
        = _ ∨ (match CddV.countCdd (T.vertices (d + 1) (pairs rows)).1 (T.vertices (d + 1) (pairs rows)).2 T.rays (T.ntl d) T.xgcd (T.irr d) L.maxDet L.fuel (pairs rows)
      L.tries (T.triangulate d) (T.guess d) with | .number k => Ending.number k | .noNumber => .noNumber | .stop => .stop | .failed e => .failed e | .undefined => .undefined) = _
    rw [this]
    by_cases h1 : (T.vertices (d + 1) (pairs rows)).1.length = 1
    · rw [if_pos h1]
      exact Or.inr rfl
    · rw [if_neg h1]
      exact Or.inl rfl

/-- **C91: unbounded polyhedra.** For every file whose conditions have a solution and a direction in which one can go on for ever: the program reports the number 0, which is wrong
whenever there is an integer point, or no number (the message that the polyhedron is not bounded, an empty file, or the loop of the elimination is cut short). -/
theorem c91_unbounded {T : Tools} (hT : T.Ok) (L : Limits) (P : Empty.Problem n) (h : P.Ok) (hs : Small P) (h0 : P.rows ≠ [] ∨ n = 0) (hf : P.nonnegFirst = false)
    (hne : P.Solutions.Nonempty) {y : Fin n → ℝ} (hy : y ∈ P.Directions) (hy0 : y ≠ 0) :
    countFile T L (text P) = .number 0 ∨ countFile T L (text P) = .noNumber ∨ countFile T L (text P) = .notBounded ∨ countFile T L (text P) = .failed .fuel := by
  rw [(countFile_eq hT L P h hs h0 hf).1 hne]
  obtain ⟨E, I, hsplit, he⟩ := split_exists hT P h hne L
  rw [he]
  obtain ⟨x, hx⟩ := id hne
  have hmove : ∀ t : ℝ, 0 ≤ t → x + t • y ∈ Polyhedron (both E I) := by
    intro t ht
    rw [hsplit.solutions]
    have e : ∀ r : ℤ × (Fin n → ℤ), (r.1 : ℝ) + ∑ k, (r.2 k : ℝ) * (x + t • y) k = ((r.1 : ℝ) + ∑ k, (r.2 k : ℝ) * x k) + t * ∑ k, (r.2 k : ℝ) * y k := by
      intro r
      rw [add_assoc, Finset.mul_sum, ← Finset.sum_add_distrib]
      congr 1
      exact Finset.sum_congr rfl fun k _ => by simp only [Pi.add_apply, Pi.smul_apply, smul_eq_mul]; ring
    refine ⟨fun r hr => ?_, fun l hl r hr => ?_, fun k hk => ?_⟩
    · rw [e]
      exact add_nonneg (hx.1 r hr) (mul_nonneg ht (hy.1 r hr))
    · rw [e, hx.2.1 l hl r hr, hy.2.1 l hl r hr, mul_zero, add_zero]
    · exact add_nonneg (hx.2.2 k hk) (mul_nonneg ht (hy.2.2 k hk))
  have hlin : ∀ (f : Vec n) (t : ℝ), dot f (x + t • y) = dot f x + t * dot f y := by
    intro f t
    unfold dot
    rw [Finset.mul_sum, ← Finset.sum_add_distrib]
    exact Finset.sum_congr rfl fun k _ => by simp only [Pi.add_apply, Pi.smul_apply, smul_eq_mul]; ring
  have hdir : ∀ q ∈ both E I, 0 ≤ dot q.2 y := by
    intro q hq
    refine slope_nonneg (c := (q.1 : ℝ) + dot q.2 x) fun t ht => ?_
    have := hmove t ht q hq
    rw [hlin] at this
    linarith
  have hx' : x ∈ Polyhedron (both E I) := by rw [hsplit.solutions]; exact hx
  have hub := unbounded_of_recession ⟨hy0, hdir⟩ hx'
  unfold projectAndCount
  by_cases hE : E = []
  · rw [if_pos hE]
    subst hE
    rcases countRows_unbounded hT L I ⟨x, hx'⟩ hub with h | h
    · exact Or.inl h
    · exact Or.inr (Or.inl h)
  · rw [if_neg hE]
    by_cases hlen : E.length = n
    · exfalso
      rw [mem_both] at hx'
      have h1 := hmove 1 zero_le_one
      rw [mem_both] at h1
      have := unique_solution hsplit.independent hlen hx'.1 h1.1
      apply hy0
      simpa using this
    have hlt := lt_of_le_of_ne hsplit.independent.le hlen
    by_cases hI : I = []
    · subst hI
      rw [(c67_not_bounded (fuel := L.hermite) (eqs := fun j : Fin E.length => E.get j) 0 1 hlt).1]
      exact Or.inr (Or.inr (Or.inl rfl))
    · cases hrun : preprocessProblem L.hermite (fun j : Fin E.length => E.get j) I 0 1 with
      | count k =>
        rw [count_zero hI hlt.le hrun]
        exact Or.inl rfl
      | notBounded => exact Or.inr (Or.inr (Or.inl rfl))
      | crash =>
        exfalso
        rw [preprocess_cases hI hlt.le] at hrun
        split at hrun
        · cases hrun
        · rename_i s hs'
          rw [eliminate_eq hlt.le (ihermite_spec hs')] at hrun
          split at hrun
          · cases hrun
          · split at hrun
            · cases hrun
            · rename_i out' _
              cases out' <;> cases hrun
      | fuel => exact Or.inr (Or.inr (Or.inr rfl))
      | reduced d out p B c =>
        obtain ⟨h1, h2⟩ := reduced_unbounded hI hlt.le hsplit.independent hx' hy0 hdir hrun
        rcases countRows_unbounded hT L out h1 h2 with h | h
        · exact Or.inl h
        · exact Or.inr (Or.inl h)

end Verif.Whole
