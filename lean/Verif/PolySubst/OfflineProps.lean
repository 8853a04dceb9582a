import Verif.PolySubst.Offline
import Verif.PolySubst.Total

/-!
# `Residue` (C72): the search for the vector and the exact answer
-/

namespace Verif.PolySubst

open PowerSeries
open Verif.Barvinok (Cone Mat Vec Ntl Variant rel)
open Verif.Barvinok.Spec
open Verif.ExpSubst

variable {n m : ℕ}

/-! ### The scans -/

theorem flat_ne {noGs i j i' j' : ℕ} (hj : j < noGs) (hj' : j' < noGs) (h : i ≠ i' ∨ j ≠ j') : i * noGs + j ≠ i' * noGs + j' := by
  intro e
  have h1 : (i * noGs + j) / noGs = i := by
    rw [Nat.add_comm, Nat.add_mul_div_right _ _ (by omega), Nat.div_eq_of_lt hj, zero_add]
  have h2 : (i' * noGs + j') / noGs = i' := by
    rw [Nat.add_comm, Nat.add_mul_div_right _ _ (by omega), Nat.div_eq_of_lt hj', zero_add]
  have e1 : i = i' := by rw [← h1, ← h2, e]
  subst e1
  have : j = j' := by omega
  tauto

theorem scanCone_spec (noGs i : ℕ) (value : ℕ → ℤ → ℤ) (want : ℕ → ℤ) : ∀ (js : List ℕ) (dots : ℕ → ℤ), js.Nodup → (∀ j ∈ js, j < noGs) →
    (∀ j ∈ js, value j (dots (i * noGs + j)) = want j) →
    (∀ x, (∀ j ∈ js, x ≠ i * noGs + j) → (scanCone noGs i value js dots).1 x = dots x) ∧
    ((scanCone noGs i value js dots).2 = none →
      ∀ j ∈ js, (scanCone noGs i value js dots).1 (i * noGs + j) = want j ∧ want j ≠ 0) ∧
    (∀ j0, (scanCone noGs i value js dots).2 = some j0 → j0 ∈ js ∧ want j0 = 0) := by
  intro js
  induction js with
  | nil => intro dots _ _ _; simp [scanCone]
  | cons j js ih =>
    intro dots hnd hlt hw
    obtain ⟨hj, hnd'⟩ := List.nodup_cons.1 hnd
    have hwj := hw j List.mem_cons_self
    have hstep : scanCone noGs i value (j :: js) dots =
        if want j = 0 then (Function.update dots (i * noGs + j) (want j), some j)
        else scanCone noGs i value js (Function.update dots (i * noGs + j) (want j)) := by
      rw [← hwj]; rfl
    have hother : ∀ j' ∈ js, (Function.update dots (i * noGs + j) (want j)) (i * noGs + j') = dots (i * noGs + j') := by
      intro j' hj'
      refine Function.update_of_ne ?_ _ _
      exact flat_ne (hlt j' (List.mem_cons_of_mem _ hj')) (hlt j List.mem_cons_self) (Or.inr (by rintro rfl; exact hj hj'))
    obtain ⟨a1, a2, a3⟩ := ih (Function.update dots (i * noGs + j) (want j)) hnd' (fun j' h => hlt j' (List.mem_cons_of_mem _ h))
      (fun j' h => by rw [hother j' h]; exact hw j' (List.mem_cons_of_mem _ h))
    rw [hstep]
    by_cases hz : want j = 0
    · rw [if_pos hz]
      refine ⟨fun x hx => Function.update_of_ne (hx j List.mem_cons_self) _ _, fun h => (by cases h), fun j0 h => ?_⟩
      cases h
      exact ⟨List.mem_cons_self, hz⟩
    · rw [if_neg hz]
      refine ⟨fun x hx => ?_, fun h j' hj' => ?_, fun j0 h => ?_⟩
      · rw [a1 x fun j' hj' => hx j' (List.mem_cons_of_mem _ hj')]
        exact Function.update_of_ne (hx j List.mem_cons_self) _ _
      · rcases List.mem_cons.1 hj' with rfl | hj'
        · refine ⟨?_, hz⟩
          rw [a1 _ fun j'' hj'' => flat_ne (hlt _ List.mem_cons_self) (hlt j'' (List.mem_cons_of_mem _ hj'')) (Or.inr (by rintro rfl; exact hj hj''))]
          exact Function.update_self _ _ _
        · exact a2 h j' hj'
      · obtain ⟨b1, b2⟩ := a3 j0 h
        exact ⟨List.mem_cons_of_mem _ b1, b2⟩

/-- The scalar product of `lam` and generator `j`. -/
def gen (lam : Vec n) (rays : List (Vec n)) (j : ℕ) : ℤ := ∑ p, lam p * (rays.getD j 0) p

theorem scan_spec (noGs : ℕ) (s : Search n) : ∀ (L : List (List (Vec n))) (i : ℕ) (dots : ℕ → ℤ),
    (∀ a (ha : a < L.length), ∀ j < noGs, scanValue s (i + a) L[a] j (dots ((i + a) * noGs + j)) = gen s.lam L[a] j) →
    (∀ i' < i, ∀ j < noGs, (scan noGs s L i dots).1 (i' * noGs + j) = dots (i' * noGs + j)) ∧
    ((scan noGs s L i dots).2 = none → ∀ a (ha : a < L.length), ∀ j < noGs,
      (scan noGs s L i dots).1 ((i + a) * noGs + j) = gen s.lam L[a] j ∧ gen s.lam L[a] j ≠ 0) ∧
    (∀ i0 j0 row, (scan noGs s L i dots).2 = some (i0, j0, row) → j0 < noGs ∧ gen s.lam row j0 = 0 ∧ ∃ a0, i0 = i + a0 ∧ ∃ ha0 : a0 < L.length,
      row = L[a0] ∧ ∀ a (ha : a < a0), ∀ j < noGs, (scan noGs s L i dots).1 ((i + a) * noGs + j) = gen s.lam L[a] j) := by
  intro L
  induction L with
  | nil => intro i dots _; simp [scan]
  | cons rays L ih =>
    intro i dots hv
    have h0 := hv 0 (by simp)
    simp only [Nat.add_zero, List.getElem_cons_zero] at h0
    obtain ⟨a1, a2, a3⟩ := scanCone_spec noGs i (scanValue s i rays) (gen s.lam rays) (List.range noGs) dots List.nodup_range
      (fun j hj => List.mem_range.1 hj) (fun j hj => h0 j (List.mem_range.1 hj))
    rw [scan]
    generalize hr : scanCone noGs i (scanValue s i rays) (List.range noGs) dots = r at a1 a2 a3
    obtain ⟨d, o⟩ := r
    cases o with
    | some j =>
      simp only
      obtain ⟨b1, b2⟩ := a3 j rfl
      refine ⟨fun i' hi' j' hj' => a1 _ fun j'' hj'' => flat_ne hj' (List.mem_range.1 hj'') (Or.inl (by omega)), fun h => (by cases h), ?_⟩
      intro i0 j0 row h
      cases h
      exact ⟨List.mem_range.1 b1, b2, 0, rfl, by simp, rfl, fun a ha => by omega⟩
    | none =>
      simp only
      have b := a2 rfl
      obtain ⟨c1, c2, c3⟩ := ih (i + 1) d (by
        intro a ha j hj
        have h1 := hv (a + 1) (by simpa using ha) j hj
        have e : d ((i + 1 + a) * noGs + j) = dots ((i + 1 + a) * noGs + j) :=
          a1 _ fun j'' hj'' => flat_ne hj (List.mem_range.1 hj'') (Or.inl (by omega))
        rw [e]
        have e2 : i + (a + 1) = i + 1 + a := by omega
        rw [e2] at h1
        exact h1)
      refine ⟨fun i' hi' j hj => ?_, fun h a ha j hj => ?_, fun i0 j0 row h => ?_⟩
      · rw [c1 i' (by omega) j hj]
        exact a1 _ fun j'' hj'' => flat_ne hj (List.mem_range.1 hj'') (Or.inl (by omega))
      · cases a with
        | zero =>
          exact ⟨(c1 i (by omega) j hj).trans (b j (List.mem_range.2 hj)).1, (b j (List.mem_range.2 hj)).2⟩
        | succ a =>
          have := c2 h a (by simpa using ha) j hj
          have e2 : i + (a + 1) = i + 1 + a := by omega
          rw [e2]
          exact this
      · obtain ⟨d1, d2, a0, d3, ha0, d4, d5⟩ := c3 i0 j0 row h
        refine ⟨d1, d2, a0 + 1, by omega, by simpa using ha0, d4, fun a ha j hj => ?_⟩
        cases a with
        | zero =>
          exact (c1 i (by omega) j hj).trans (b j (List.mem_range.2 hj)).1
        | succ a =>
          have := d5 a (by omega) j hj
          have e2 : i + (a + 1) = i + 1 + a := by omega
          rw [e2]
          exact this

/-! ### The search -/

/-- The invariant of LOOP 1: the scalar products of the cones before `haltCone` lag behind by `dlambda`. -/
def SearchInv (noGs : ℕ) (rays : List (List (Vec n))) (s : Search n) : Prop :=
  ∀ i (hi : i < rays.length), (i : ℤ) < s.haltCone → ∀ j < noGs,
    s.dots (i * noGs + j) + (∑ p : Fin n, if s.low ≤ p.val then s.dlam p * (rays[i].getD j 0) p else 0) = gen s.lam rays[i] j

theorem scanValue_ok (noGs : ℕ) (rays : List (List (Vec n))) (s : Search n) (h : SearchInv noGs rays s) :
    ∀ a (ha : a < rays.length), ∀ j < noGs, scanValue s (0 + a) rays[a] j (s.dots ((0 + a) * noGs + j)) = gen s.lam rays[a] j := by
  intro a ha j hj
  rw [Nat.zero_add]
  unfold scanValue
  split_ifs with hc
  · exact h a ha hc j hj
  · rfl

theorem nextLambda_inv (noGs : ℕ) (rays : List (List (Vec (m + 1)))) (last : Bool) (s s' : Search (m + 1)) (row : Vec (m + 1))
    (h : ∀ i (hi : i < rays.length), (i : ℤ) < s.haltCone → ∀ j < noGs, s.dots (i * noGs + j) = gen s.lam rays[i] j)
    (hs : nextLambda last s row = some s') : SearchInv noGs rays s' := by
  unfold nextLambda at hs
  revert hs
  generalize descend row s.lam m _ _ = t
  intro hs
  simp only at hs
  split at hs
  · cases hs
  · rename_i hc
    cases hs
    intro i hi hlt j hj
    simp only
    rw [h i hi hlt j hj]
    unfold gen
    rw [← Finset.sum_add_distrib]
    refine Finset.sum_congr rfl fun p _ => ?_
    beta_reduce
    rcases lt_trichotomy p t with h1 | h1 | h1
    · rw [if_neg (by have := Fin.lt_def.1 h1; omega), if_neg h1.ne, if_neg (by exact not_lt.2 h1.le), add_zero]
    · subst h1
      rw [if_pos le_rfl, if_pos rfl, if_pos rfl]
      ring
    · rw [if_pos (Fin.le_def.1 h1.le), if_neg h1.ne', if_pos h1, if_neg h1.ne', if_pos h1]
      ring

/-- What the search promises. -/
def Found (noGs : ℕ) (rays : List (List (Vec n))) (lam : Vec n) (dots : ℕ → ℤ) : Prop :=
  ∀ i (hi : i < rays.length), ∀ j < noGs, dots (i * noGs + j) = gen lam rays[i] j ∧ gen lam rays[i] j ≠ 0

theorem loop1_spec (noGs : ℕ) (rays : List (List (Vec (m + 1)))) : ∀ (fuel : ℕ) (s : Search (m + 1)), SearchInv noGs rays s →
    ∀ lam dots, loop1 noGs rays fuel s = some (lam, dots) → Found noGs rays lam dots := by
  intro fuel
  induction fuel with
  | zero => intro s _ lam dots h; cases h
  | succ fuel ih =>
    intro s hs lam dots h
    obtain ⟨-, a2, a3⟩ := scan_spec noGs s rays 0 s.dots (scanValue_ok noGs rays s hs)
    unfold loop1 at h
    generalize hr : scan noGs s rays 0 s.dots = r at a2 a3 h
    obtain ⟨d, o⟩ := r
    cases o with
    | none =>
      simp only at h
      cases h
      intro i hi j hj
      have := a2 rfl i hi j hj
      rwa [Nat.zero_add] at this
    | some q =>
      obtain ⟨i0, j0, row⟩ := q
      simp only at h
      obtain ⟨-, -, a0, e0, ha0, -, hlow⟩ := a3 i0 j0 row rfl
      split at h
      · cases h
      · rename_i s' hs'
        refine ih s' (nextLambda_inv noGs rays _ _ s' _ ?_ hs') lam dots h
        intro i hi hlt j hj
        simp only at hlt ⊢
        have := hlow i (by omega) j hj
        rwa [Nat.zero_add] at this

theorem zeroSearch_inv (noGs : ℕ) (rays : List (List (Vec n))) (lam : Vec n) (low : ℕ) (h : ℤ) (hh : h ≤ 0) (halt : ℕ) (dlam : Vec n) (dots : ℕ → ℤ) :
    SearchInv noGs rays ⟨lam, dlam, low, h, halt, dots⟩ := by
  intro i hi hlt
  simp only at hlt
  omega

theorem loop2_spec (noGs : ℕ) (rays : List (List (Vec (m + 1)))) : ∀ (tries : ℕ) (guesses : ℕ → Vec (m + 1)) (dots0 : ℕ → ℤ),
    (∀ lam dots, loop2 noGs rays tries guesses dots0 = some (lam, dots) → Found noGs rays lam dots) ∧
    (∀ t < tries, (∀ i (hi : i < rays.length), ∀ j < noGs, gen (guesses t) rays[i] j ≠ 0) →
      (loop2 noGs rays tries guesses dots0).isSome = true) := by
  intro tries
  induction tries with
  | zero => intro g d; exact ⟨fun lam dots h => (by cases h), fun t ht => by omega⟩
  | succ tries ih =>
    intro guesses dots0
    obtain ⟨-, a2, a3⟩ := scan_spec noGs ⟨guesses 0, 0, 0, 0, 0, dots0⟩ rays 0 dots0
      (scanValue_ok noGs rays ⟨guesses 0, 0, 0, 0, 0, dots0⟩ (zeroSearch_inv noGs rays _ _ _ le_rfl _ _ _))
    unfold loop2
    generalize hr : scan noGs ⟨guesses 0, 0, 0, 0, 0, dots0⟩ rays 0 dots0 = r at a2 a3
    obtain ⟨d, o⟩ := r
    cases o with
    | none =>
      simp only
      refine ⟨fun lam dots h => ?_, fun _ _ _ => rfl⟩
      cases h
      intro i hi j hj
      have := a2 rfl i hi j hj
      rwa [Nat.zero_add] at this
    | some q =>
      obtain ⟨i0, j0, row⟩ := q
      simp only
      obtain ⟨b1, b2⟩ := ih (fun i => guesses (i + 1)) d
      refine ⟨b1, fun t ht hg => ?_⟩
      obtain ⟨hj0, hz, a0, -, ha0, hrow, -⟩ := a3 i0 j0 row rfl
      cases t with
      | zero =>
        exfalso
        refine hg a0 ha0 j0 hj0 ?_
        rw [← hrow]
        exact hz
      | succ t => exact b2 t (by omega) hg

/-- **C72, the vector.** Whatever path the search takes, the vector it returns is not orthogonal to any ray, and the scalar products it kept up to date
incrementally are the right ones. -/
theorem c72_vector (noGs : ℕ) (rays : List (List (Vec (m + 1)))) (tries : ℕ) (guesses : ℕ → Vec (m + 1)) (lam : Vec (m + 1)) (dots : ℕ → ℤ)
    (h : findLambda noGs rays tries guesses = some (lam, dots)) : Found noGs rays lam dots := by
  unfold findLambda at h
  split at h
  · rename_i r hr
    cases h
    exact loop1_spec noGs rays 5000 _ (zeroSearch_inv noGs rays _ _ _ (by norm_num) _ _ _) lam dots hr
  · exact (loop2_spec noGs rays tries guesses 0).1 lam dots h

/-- **C72, the search ends** as soon as a vector is drawn that is not orthogonal to any ray. -/
theorem c72_search_ends (noGs : ℕ) (rays : List (List (Vec (m + 1)))) (tries : ℕ) (guesses : ℕ → Vec (m + 1)) (t : ℕ) (ht : t < tries)
    (hg : ∀ i (hi : i < rays.length), ∀ j < noGs, gen (guesses t) rays[i] j ≠ 0) : (findLambda noGs rays tries guesses).isSome = true := by
  unfold findLambda
  split
  · rfl
  · exact (loop2_spec noGs rays tries guesses 0).2 t ht hg

end Verif.PolySubst
