import Verif.Lists.Model

/-! C08: membership in a list of vectors and equality of lists. -/

namespace Latte.Lists

theorem eqLoop_spec (v w : List Int) (i k : Nat) (hv : i + k = v.length) (hw : i + k = w.length) :
    eqLoop v w i k = some (decide (v.drop i = w.drop i)) := by
  induction k generalizing i with
  | zero =>
    have h1 : v.drop i = [] := List.drop_eq_nil_of_le (by omega)
    have h2 : w.drop i = [] := List.drop_eq_nil_of_le (by omega)
    simp [eqLoop, h1, h2]
  | succ k ih =>
    have h1 : i < v.length := by omega
    have h2 : i < w.length := by omega
    unfold eqLoop
    rw [List.getElem?_eq_getElem h1, List.getElem?_eq_getElem h2]
    simp only
    have e : (v.drop i = w.drop i) ↔ (v[i] = w[i] ∧ v.drop (i + 1) = w.drop (i + 1)) := by
      rw [List.drop_eq_getElem_cons h1, List.drop_eq_getElem_cons h2]; exact List.cons_eq_cons
    by_cases h : v[i] = w[i]
    · rw [if_pos h, ih (i + 1) (by omega) (by omega)]
      congr 1
      rw [decide_eq_decide, e]; exact ⟨fun h' => ⟨h, h'⟩, fun h' => h'.2⟩
    · rw [if_neg h]
      congr 1
      symm; rw [decide_eq_false_iff_not, e]; exact fun h' => h h'.1

theorem vecEq_spec (v w : List Int) (n : Nat) (hv : v.length = n) (hw : w.length = n) :
    vecEq v w n = some (decide (v = w)) := by
  have := eqLoop_spec v w 0 n (by omega) (by omega)
  simpa [vecEq] using this

/-- **C08** For vectors of the stated dimension, the three-argument membership test answers exactly whether the vector
occurs in the list. -/
theorem c08_member_with_dimension (v : List Int) (n : Nat) (l : List (List Int)) (hv : v.length = n)
    (hl : ∀ w ∈ l, w.length = n) : inList3 v n l = some (decide (v ∈ l)) := by
  induction l with
  | nil => simp [inList3]
  | cons w ws ih =>
    unfold inList3
    rw [vecEq_spec v w n hv (hl w (List.mem_cons_self ..))]
    by_cases h : v = w
    · simp [h]
    · simp only [h, decide_false]
      rw [ih (fun x hx => hl x (List.mem_cons_of_mem _ hx))]
      simp [h]

/-- **C08** What the two-argument overload really computes: whether *all* elements equal the vector. -/
theorem c08_member_two_args_is_all (v : List Int) (l : List (List Int)) (hl : ∀ w ∈ l, w.length = v.length) :
    inList2 v l = some (decide (∀ w ∈ l, w = v)) := by
  induction l with
  | nil => simp [inList2]
  | cons w ws ih =>
    unfold inList2
    rw [vecEq_spec v w v.length rfl (hl w (List.mem_cons_self ..))]
    by_cases h : v = w
    · subst h
      simp only [decide_true]
      rw [ih (fun x hx => hl x (List.mem_cons_of_mem _ hx))]
      simp
    · have h' : ¬ w = v := fun e => h e.symm
      simp [h, h']

/-- **C08** violated: for any two distinct vectors of equal dimension the two-argument test denies membership of a
vector that is in the list, and for every vector it affirms membership in the empty list. -/
theorem c08_member_two_args_violated (v w : List Int) (hlen : w.length = v.length) (hne : v ≠ w) :
    inList2 v [v, w] = some false ∧ inList2 v [] = some true := by
  refine ⟨?_, rfl⟩
  rw [c08_member_two_args_is_all v [v, w] (by simp [hlen])]
  simp [Ne.symm hne]

/-- what list equality really computes -/
theorem isEqual_char (n : Nat) (a b : List (List Int)) (ha : ∀ w ∈ a, w.length = n) (hb : ∀ w ∈ b, w.length = n) :
    isEqual a b = some (decide (a.length = b.length ∧ ∀ x ∈ a, ∀ y ∈ b, y = x)) := by
  unfold isEqual
  by_cases hl : a.length = b.length
  · rw [if_neg (by simpa using hl)]
    simp only [hl, true_and]
    clear hl
    induction a with
    | nil => simp [eqListLoop]
    | cons x xs ih =>
      unfold eqListLoop
      have hx := ha x (List.mem_cons_self ..)
      rw [c08_member_two_args_is_all x b (fun w hw => by rw [hb w hw, hx])]
      by_cases h : ∀ w ∈ b, w = x
      · rw [decide_eq_true h]
        simp only
        rw [ih (fun w hw => ha w (List.mem_cons_of_mem _ hw))]
        congr 1
        simp only [List.forall_mem_cons, decide_eq_decide]
        exact ⟨fun h1 => ⟨h, h1⟩, fun h1 => h1.2⟩
      · rw [decide_eq_false h]
        simp only
        congr 1
        symm
        rw [decide_eq_false_iff_not]
        intro h1
        exact h (h1 x (List.mem_cons_self ..))
  · rw [if_pos hl]; simp [hl]

/-- **C08** violated: a list containing two distinct vectors is reported different from itself. -/
theorem c08_isEqual_not_reflexive (v w : List Int) (hlen : w.length = v.length) (hne : v ≠ w) (l : List (List Int))
    (hl : ∀ x ∈ l, x.length = v.length) : isEqual (v :: w :: l) (v :: w :: l) = some false := by
  have h : ∀ x ∈ v :: w :: l, x.length = v.length := by
    intro x hx
    simp only [List.mem_cons] at hx
    rcases hx with rfl | rfl | hx
    · rfl
    · exact hlen
    · exact hl x hx
  rw [isEqual_char v.length _ _ h h]
  congr 1
  rw [decide_eq_false_iff_not]
  rintro ⟨_, h1⟩
  exact hne (h1 w (by simp) v (by simp))

/-- **C08** the part of list equality that holds: an affirmative answer is sound (the lists have the same elements),
and the answer is exact for lists of at most one element. Missing: completeness for longer lists (false, see
`c08_isEqual_not_reflexive`). -/
theorem c08_isEqual_partial (n : Nat) (a b : List (List Int)) (ha : ∀ w ∈ a, w.length = n) (hb : ∀ w ∈ b, w.length = n) :
    (isEqual a b = some true → a = b) ∧ (a.length ≤ 1 → isEqual a b = some (decide (a = b))) := by
  rw [isEqual_char n a b ha hb]
  constructor
  · intro h
    simp only [Option.some.injEq, decide_eq_true_eq] at h
    obtain ⟨hl, h⟩ := h
    apply List.ext_getElem hl
    intro i h1 h2
    exact (h _ (List.getElem_mem h1) _ (List.getElem_mem h2)).symm
  · intro h
    congr 1
    rw [decide_eq_decide]
    match a, b, h with
    | [], [], _ => simp
    | [], y :: ys, _ => simp
    | [x], [], _ => simp
    | [x], [y], _ => simp [eq_comm]
    | [x], y :: z :: ys, _ => simp

/-- non-vacuity -/
example : inList3 [1, 2] 2 [[0, 0], [1, 2]] = some true ∧ inList2 [1, 2] [[0, 0], [1, 2]] = some false ∧
    isEqual [[1, 2]] [[1, 2]] = some true := by decide

end Latte.Lists
