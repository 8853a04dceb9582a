import Verif.Hypersimplex.Model
import Mathlib.Tactic.Ring
import Mathlib.Tactic.Linarith
import Mathlib.Data.List.Basic

/-!
# C99: the vertices of hypersimplices
-/

namespace Verif.Hypersimplex

/-- `v` has `m` ones and `z` zeros and no other entries. -/
def IsWord (m z : ℕ) (v : List ℤ) : Prop := v.count 1 = m ∧ v.count 0 = z ∧ v.length = m + z

/-- Blocks of ones and zeros. -/
abbrev block (m z : ℕ) : List ℤ := List.replicate m 1 ++ List.replicate z 0

theorem isWord_block (m z : ℕ) : IsWord m z (block m z) := by
  refine ⟨?_, ?_, by simp [block]⟩ <;> simp [block, List.count_replicate]

theorem isWord_one {m z : ℕ} {v : List ℤ} : IsWord (m + 1) z (1 :: v) ↔ IsWord m z v := by
  simp only [IsWord, List.count_cons, List.length_cons, beq_self_eq_true, if_true, show ((1 : ℤ) == 0) = false from rfl, Bool.false_eq_true, if_false]
  omega

theorem isWord_zero {m z : ℕ} {v : List ℤ} : IsWord m (z + 1) (0 :: v) ↔ IsWord m z v := by
  simp only [IsWord, List.count_cons, List.length_cons, beq_self_eq_true, if_true, show ((0 : ℤ) == 1) = false from rfl, Bool.false_eq_true, if_false]
  omega

/-- Every entry is one or zero. -/
theorem isWord_mem {m z : ℕ} {v : List ℤ} (h : IsWord m z v) : ∀ x ∈ v, x = 0 ∨ x = 1 := by
  induction v generalizing m z with
  | nil => intro x hx; cases hx
  | cons a v ih =>
    obtain ⟨h1, h2, h3⟩ := h
    have hle : ∀ w : List ℤ, w.count 1 + w.count 0 ≤ w.length := by
      intro w
      induction w with
      | nil => simp
      | cons b w ih =>
        simp only [List.count_cons, List.length_cons, beq_iff_eq]
        by_cases hb : b = 1
        · subst hb; simp; omega
        · by_cases hb' : b = 0
          · subst hb'; simp; omega
          · simp [hb, hb']; omega
    have := hle v
    intro x hx
    by_cases ha : a = 1
    · subst ha
      rcases List.mem_cons.1 hx with rfl | hx
      · exact .inr rfl
      · simp only [List.count_cons, List.length_cons] at h1 h2 h3
        simp at h1 h2
        exact ih (m := m - 1) (z := z) ⟨by omega, h2, by omega⟩ x hx
    · by_cases ha' : a = 0
      · subst ha'
        rcases List.mem_cons.1 hx with rfl | hx
        · exact .inl rfl
        · simp only [List.count_cons, List.length_cons] at h1 h2 h3
          simp at h1 h2
          exact ih (m := m) (z := z - 1) ⟨by omega, by omega, by omega⟩ x hx
      · simp only [List.count_cons, List.length_cons] at h1 h2 h3
        simp [ha, ha'] at h1 h2
        omega

theorem isWord_head {m z : ℕ} {v : List ℤ} (h : IsWord m z v) (hl : 0 < m + z) : (∃ u, v = 1 :: u) ∨ ∃ u, v = 0 :: u := by
  cases v with
  | nil => have := h.2.2; simp at this; omega
  | cons a v =>
    rcases isWord_mem h a List.mem_cons_self with rfl | rfl
    · exact .inr ⟨v, rfl⟩
    · exact .inl ⟨v, rfl⟩

theorem isWord_no_zero {m : ℕ} {v : List ℤ} (h : IsWord m 0 v) : v = block m 0 := by
  induction m generalizing v with
  | zero => have := h.2.2; simp at this; subst this; rfl
  | succ m ih =>
    rcases isWord_head h (by omega) with ⟨u, rfl⟩ | ⟨u, rfl⟩
    · rw [ih (isWord_one.1 h)]; rfl
    · have := h.2.1; simp at this

theorem isWord_no_one {z : ℕ} {v : List ℤ} (h : IsWord 0 z v) : v = block 0 z := by
  induction z generalizing v with
  | zero => have := h.2.2; simp at this; subst this; rfl
  | succ z ih =>
    rcases isWord_head h (by omega) with ⟨u, rfl⟩ | ⟨u, rfl⟩
    · have := h.1; simp at this
    · have := ih (isWord_zero.1 h); rw [this]; rfl

theorem set_append (pre : List ℤ) (a b : ℤ) (l : List ℤ) : (pre ++ a :: l).set pre.length b = pre ++ b :: l := by simp

theorem set_append' (pre : List ℤ) (a c b : ℤ) (l : List ℤ) : (pre ++ a :: c :: l).set (pre.length + 1) b = pre ++ a :: b :: l := by simp

/-- The words that the block leads to: those that begin with a zero, each once. -/
def ZeroWords (L : List (List ℤ)) (pre : List ℤ) (m z : ℕ) : Prop :=
  L.Nodup ∧ ∀ x, x ∈ L ↔ ∃ v, x = pre ++ 0 :: v ∧ IsWord m z (0 :: v)

theorem zeroWords_none (pre : List ℤ) (m : ℕ) : ZeroWords [] pre m 0 := by
  refine ⟨List.nodup_nil, fun x => ⟨fun h => (List.not_mem_nil h).elim, ?_⟩⟩
  rintro ⟨v, -, h⟩
  have := h.2.1
  simp at this

/-- All words, or all but the block. -/
def Words (L : List (List ℤ)) (pre : List ℤ) (m z : ℕ) (ac : Bool) : Prop :=
  L.Nodup ∧ ∀ x, x ∈ L ↔ ∃ v, x = pre ++ v ∧ IsWord m z v ∧ (ac = false → v ≠ block m z)

theorem slide_words (z : ℕ) : ∀ pre : List ℤ, ZeroWords (slide (pre ++ block 1 z) z pre.length) pre 1 z := by
  induction z with
  | zero => intro pre; exact zeroWords_none pre 1
  | succ z ih =>
    intro pre
    have e : ((pre ++ block 1 (z + 1)).set pre.length 0).set (pre.length + 1) 1 = (pre ++ [0]) ++ block 1 z := by
      rw [show pre ++ block 1 (z + 1) = pre ++ 1 :: 0 :: List.replicate z 0 from rfl, set_append, set_append']
      simp [block]
    rw [slide, e]
    have h := ih (pre ++ [0])
    rw [List.length_append, List.length_singleton] at h
    refine ⟨List.nodup_cons.2 ⟨fun hm => ?_, h.1⟩, fun x => ?_⟩
    · obtain ⟨v, hv, -⟩ := (h.2 _).1 hm
      have := List.append_cancel_left hv
      simp [block] at this
    · rw [List.mem_cons, h.2]
      constructor
      · rintro (rfl | ⟨v, rfl, hv⟩)
        · exact ⟨block 1 z, by simp, isWord_zero.2 (isWord_block 1 z)⟩
        · exact ⟨0 :: v, by simp, isWord_zero.2 hv⟩
      · rintro ⟨v, rfl, hv⟩
        rw [isWord_zero] at hv
        rcases isWord_head hv (by omega) with ⟨u, rfl⟩ | ⟨u, rfl⟩
        · left
          rw [isWord_no_one (isWord_one.1 hv)]
          simp [block]
        · right; exact ⟨u, by simp, hv⟩

theorem ones_block (m : ℕ) : ∀ (pre l : List ℤ) (l' : List ℤ), l'.length = m → ones (pre ++ l' ++ l) m pre.length = pre ++ List.replicate m 1 ++ l := by
  induction m with
  | zero => intro pre l l' h; rw [List.length_eq_zero_iff] at h; subst h; simp [ones]
  | succ m ih =>
    intro pre l l' h
    cases l' with
    | nil => simp at h
    | cons a l' =>
      rw [ones, List.append_assoc, List.cons_append, set_append]
      have := ih (pre ++ [1]) l l' (by simpa using h)
      simp only [List.append_assoc, List.length_append, List.length_singleton, List.cons_append, List.nil_append] at this
      rw [this]
      simp [List.replicate_succ]

theorem shift_block (pre : List ℤ) (m z : ℕ) :
    ones ((pre ++ block (m + 1) (z + 1)).set pre.length 0) (m + 1) (pre.length + 1) = (pre ++ [0]) ++ block (m + 1) z := by
  rw [show pre ++ block (m + 1) (z + 1) = pre ++ 1 :: (List.replicate m 1 ++ 0 :: List.replicate z 0) from rfl, set_append]
  have := ones_block (m + 1) (pre ++ [0]) (List.replicate z 0) (List.replicate m 1 ++ [0]) (by simp)
  simp only [List.length_append, List.length_singleton] at this
  rw [← show (pre ++ [0]) ++ (List.replicate m 1 ++ [0]) ++ List.replicate z 0 = pre ++ 0 :: (List.replicate m 1 ++ 0 :: List.replicate z 0) by simp, this]
  simp [block]

theorem shifts_words (rec : List ℤ → ℕ → Bool → List (List ℤ)) (m N d : ℕ)
    (hrec : ∀ (pre : List ℤ) z, pre.length + m + z = d → m + z ≤ N → Words (rec (pre ++ block m z) pre.length true) pre m z true) (z : ℕ) :
    ∀ (pre : List ℤ), pre.length + (m + 1) + z = d → m + z ≤ N + 1 → ZeroWords (shifts rec z (pre ++ block (m + 1) z) pre.length (pre.length + m : ℤ)) pre (m + 1) z := by
  induction z with
  | zero => intro pre _ _; exact zeroWords_none pre (m + 1)
  | succ z ih =>
    intro pre hd hN
    rw [shifts, show ((pre.length + m : ℤ) + 1 - (pre.length : ℕ)).toNat = m + 1 by omega, shift_block]
    have h1 := hrec (pre ++ [0, 1]) z (by simp; omega) (by omega)
    have h2 := ih (pre ++ [0]) (by simp; omega) (by omega)
    rw [show (pre ++ ([0, 1] : List ℤ)).length = pre.length + 2 by simp,
      show pre ++ [0, 1] ++ block m z = (pre ++ [0]) ++ block (m + 1) z by simp [block, List.replicate_succ]] at h1
    rw [show (pre ++ ([0] : List ℤ)).length = pre.length + 1 by simp, show ((pre.length + 1 : ℕ) : ℤ) + m = (pre.length + m : ℤ) + 1 by push_cast; ring] at h2
    refine ⟨List.nodup_append.2 ⟨h1.1, h2.1, ?_⟩, fun x => ?_⟩
    · rintro x hx y hy rfl
      obtain ⟨v, rfl, -⟩ := (h1.2 x).1 hx
      obtain ⟨u, hu, -⟩ := (h2.2 _).1 hy
      simp at hu
    · rw [List.mem_append, h1.2, h2.2]
      constructor
      · rintro (⟨v, rfl, hv, -⟩ | ⟨v, rfl, hv⟩)
        · exact ⟨1 :: v, by simp, isWord_zero.2 (isWord_one.2 hv)⟩
        · exact ⟨0 :: v, by simp, isWord_zero.2 hv⟩
      · rintro ⟨v, rfl, hv⟩
        rw [isWord_zero] at hv
        rcases isWord_head hv (by omega) with ⟨u, rfl⟩ | ⟨u, rfl⟩
        · left; exact ⟨u, by simp, isWord_one.1 hv, by simp⟩
        · right; exact ⟨u, by simp, hv⟩

theorem getD_block_one (pre : List ℤ) {i m : ℕ} (z : ℕ) (h : i < m) : (pre ++ block m z).getD (pre.length + i) 0 = 1 := by
  simp [block, List.getD_eq_getElem?_getD, List.getElem?_append, List.getElem?_replicate, h]

theorem getD_block_zero (pre : List ℤ) (m z : ℕ) : (pre ++ block m z).getD (pre.length + m) 0 = 0 := by
  simp only [block, List.getD_eq_getElem?_getD, List.getElem?_append, List.getElem?_replicate]
  simp
  split <;> simp

theorem lastOne_none (pre : List ℤ) (m j i : ℕ) (h : i + j = m) : lastOne (pre ++ block m 0) j (pre.length + i) = -1 := by
  induction j generalizing i with
  | zero => rfl
  | succ j ih =>
    rw [lastOne, getD_block_one _ _ (by omega), if_neg (by simp)]
    exact ih (i + 1) (by omega)

theorem lastOne_some (pre : List ℤ) (m z j i : ℕ) (hm : 0 < m) (hz : 0 < z) (hi : i ≤ m) (h : i + j = m + z) :
    lastOne (pre ++ block m z) j (pre.length + i) = pre.length + m - 1 := by
  induction j generalizing i with
  | zero => omega
  | succ j ih =>
    rw [lastOne]
    by_cases hi' : i < m
    · rw [getD_block_one _ _ hi', if_neg (by simp)]
      exact ih (i + 1) (by omega) (by omega)
    · have : i = m := by omega
      subst this
      rw [getD_block_zero, if_pos ⟨rfl, by push_cast; omega⟩]
      push_cast; ring

/-- The recursion, for a point that ends with ones and then zeros. -/
theorem add_words (fuel : ℕ) : ∀ (m z : ℕ) (pre : List ℤ) (ac : Bool), 0 < m → m + z ≤ fuel → (ac = false → 0 < z) →
    Words (addToPoints (pre.length + m + z) fuel (pre ++ block m z) pre.length ac) pre m z ac := by
  induction fuel with
  | zero => intro m z pre ac hm hf; omega
  | succ fuel ih =>
    intro m z pre ac hm hf hac
    rw [addToPoints]
    have single : ∀ (hz : z = 0), Words [pre ++ block m z] pre m z true := fun hz => by
      subst hz
      refine ⟨List.nodup_singleton _, fun x => ?_⟩
      rw [List.mem_singleton]
      constructor
      · rintro rfl; exact ⟨_, rfl, isWord_block m 0, by simp⟩
      · rintro ⟨v, rfl, hv, -⟩; rw [isWord_no_zero hv]
    by_cases hz : z = 0
    · have hact : ac = true := by cases ac with
        | true => rfl
        | false => have := hac rfl; omega
      subst hact
      subst hz
      by_cases hb : pre.length + 1 ≥ pre.length + m + 0
      · rw [if_pos rfl, if_pos hb]; exact single rfl
      · have e := lastOne_none pre m m 0 (by omega)
        rw [Nat.add_zero] at e
        rw [if_pos rfl, if_neg hb, show pre.length + m + 0 - pre.length = m by omega, if_pos e, if_pos rfl]
        exact single rfl
    · have hb : ¬ pre.length + 1 ≥ pre.length + m + z := by omega
      have e : lastOne (pre ++ block m z) (pre.length + m + z - pre.length) pre.length = pre.length + m - 1 := by
        have := lastOne_some pre m z (m + z) 0 hm (by omega) (by omega) (by omega)
        rw [Nat.add_zero] at this
        rw [show pre.length + m + z - pre.length = m + z by omega, this]
      rw [if_neg hb, e, if_neg (show ¬ (pre.length : ℤ) + m - 1 = -1 by omega)]
      -- the words that begin with a zero complete those that begin with a one
      have combine : ∀ (L1 L0 : List (List ℤ)), (L1.Nodup ∧ ∀ x, x ∈ L1 ↔ ∃ v, x = pre ++ 1 :: v ∧ IsWord m z (1 :: v) ∧ 1 :: v ≠ block m z) →
          ZeroWords L0 pre m z → Words ((if ac = true then [pre ++ block m z] else []) ++ (L1 ++ L0)) pre m z ac := by
        rintro L1 L0 ⟨hn1, h1⟩ ⟨hn0, h0⟩
        have hcur1 : pre ++ block m z ∉ L1 := fun hx => by
          obtain ⟨v, hv, -, hne⟩ := (h1 _).1 hx
          exact hne (List.append_cancel_left hv).symm
        have hblock : ∃ u, block m z = 1 :: u := by
          obtain ⟨m', rfl⟩ : ∃ m', m = m' + 1 := ⟨m - 1, by omega⟩
          exact ⟨_, rfl⟩
        have hcur0 : pre ++ block m z ∉ L0 := fun hx => by
          obtain ⟨v, hv, -⟩ := (h0 _).1 hx
          obtain ⟨u, hu⟩ := hblock
          have := List.append_cancel_left hv
          rw [hu] at this
          simp at this
        have hn : (L1 ++ L0).Nodup := List.nodup_append.2 ⟨hn1, hn0, by
          rintro x hx y hy rfl
          obtain ⟨v, rfl, -⟩ := (h1 x).1 hx
          obtain ⟨u, hu, -⟩ := (h0 _).1 hy
          have := List.append_cancel_left hu
          simp at this⟩
        have hmem : ∀ x, x ∈ L1 ++ L0 ↔ ∃ v, x = pre ++ v ∧ IsWord m z v ∧ v ≠ block m z := fun x => by
          rw [List.mem_append, h1, h0]
          constructor
          · rintro (⟨v, rfl, hv, hne⟩ | ⟨v, rfl, hv⟩)
            · exact ⟨_, rfl, hv, hne⟩
            · refine ⟨_, rfl, hv, fun e => ?_⟩
              obtain ⟨u, hu⟩ := hblock
              rw [hu] at e
              simp at e
          · rintro ⟨v, rfl, hv, hne⟩
            rcases isWord_head hv (by omega) with ⟨u, rfl⟩ | ⟨u, rfl⟩
            · exact .inl ⟨u, rfl, hv, hne⟩
            · exact .inr ⟨u, rfl, hv⟩
        cases ac with
        | false =>
          refine ⟨hn, fun x => ?_⟩
          simp only [Bool.false_eq_true, if_false, List.nil_append, true_imp_iff]
          exact hmem x
        | true =>
          simp only [if_true]
          refine ⟨?_, fun x => ?_⟩
          · rw [List.singleton_append, List.nodup_cons]; exact ⟨fun hx => (List.mem_append.1 hx).elim hcur1 hcur0, hn⟩
          rw [List.singleton_append, List.mem_cons, hmem]
          constructor
          · rintro (rfl | ⟨v, rfl, hv, -⟩)
            · exact ⟨_, rfl, isWord_block m z, by simp⟩
            · exact ⟨v, rfl, hv, by simp⟩
          · rintro ⟨v, rfl, hv, -⟩
            by_cases hv' : v = block m z
            · exact .inl (by rw [hv'])
            · exact .inr ⟨v, rfl, hv, hv'⟩
      by_cases hm1 : m = 1
      · subst hm1
        rw [if_pos (show (pre.length : ℤ) + (1 : ℕ) - 1 - pre.length = 0 by push_cast; ring), show ((pre.length : ℤ) + (1 : ℕ) - 1).toNat = pre.length by push_cast; omega,
          show pre.length + 1 + z - 1 - pre.length = z by omega]
        have := combine [] _ ⟨List.nodup_nil, fun x => ⟨fun h => (List.not_mem_nil h).elim, ?_⟩⟩ (slide_words z pre)
        · simpa using this
        · rintro ⟨v, -, hv, hne⟩
          exact absurd (by rw [isWord_no_one (isWord_one.1 hv)]; rfl) hne
      · rw [if_neg (show ¬ (pre.length : ℤ) + m - 1 - pre.length = 0 by omega)]
        obtain ⟨m', rfl⟩ : ∃ m', m = m' + 1 := ⟨m - 1, by omega⟩
        refine combine _ _ ?_ ?_
        · have h := ih m' z (pre ++ [1]) false (by omega) (by omega) (fun _ => by omega)
          rw [show (pre ++ ([1] : List ℤ)).length = pre.length + 1 by simp, show pre ++ [1] ++ block m' z = pre ++ block (m' + 1) z by simp [block, List.replicate_succ],
            show pre.length + 1 + m' + z = pre.length + (m' + 1) + z by omega] at h
          refine ⟨h.1, fun x => (h.2 x).trans ⟨?_, ?_⟩⟩
          · rintro ⟨v, rfl, hv, hne⟩
            exact ⟨v, by simp, isWord_one.2 hv, fun e => hne rfl (by simpa [block, List.replicate_succ] using e)⟩
          · rintro ⟨v, rfl, hv, hne⟩
            exact ⟨v, by simp, isWord_one.1 hv, fun _ e => hne (by rw [e]; rfl)⟩
        · have := shifts_words (addToPoints (pre.length + (m' + 1) + z) fuel) m' (m' + z - 1) (pre.length + (m' + 1) + z) (fun pre' z' hd hN => ?_) z pre rfl (by omega)
          · rw [show (((pre.length + (m' + 1) + z : ℕ) : ℤ) - ((pre.length : ℤ) + ((m' + 1 : ℕ) : ℤ) - 1) - 1).toNat = z by push_cast; omega,
              show (pre.length : ℤ) + ((m' + 1 : ℕ) : ℤ) - 1 = pre.length + m' by push_cast; ring]
            exact this
          · rw [← hd]; exact ih m' z' pre' true (by omega) (by omega) (by simp)

theorem isWord_iff {m z : ℕ} {v : List ℤ} : IsWord m z v ↔ v.length = m + z ∧ (∀ e ∈ v, e = 0 ∨ e = 1) ∧ v.sum = m := by
  constructor
  · intro h
    refine ⟨h.2.2, isWord_mem h, ?_⟩
    have : ∀ w : List ℤ, (∀ e ∈ w, e = 0 ∨ e = 1) → w.sum = w.count 1 := by
      intro w
      induction w with
      | nil => intro _; rfl
      | cons a w ih =>
        intro hw
        rw [List.sum_cons, ih fun e he => hw e (List.mem_cons_of_mem _ he), List.count_cons]
        rcases hw a List.mem_cons_self with rfl | rfl
        · simp
        · simp; ring
    rw [this v (isWord_mem h), h.1]
  · rintro ⟨h1, h2, h3⟩
    have : ∀ w : List ℤ, (∀ e ∈ w, e = 0 ∨ e = 1) → w.sum = w.count 1 ∧ w.count 1 + w.count 0 = w.length := by
      intro w
      induction w with
      | nil => intro _; exact ⟨rfl, rfl⟩
      | cons a w ih =>
        intro hw
        obtain ⟨i1, i2⟩ := ih fun e he => hw e (List.mem_cons_of_mem _ he)
        rw [List.sum_cons, i1, List.count_cons, List.count_cons, List.length_cons]
        rcases hw a List.mem_cons_self with rfl | rfl
        · refine ⟨by simp, ?_⟩; simp; omega
        · refine ⟨by simp; ring, ?_⟩; simp; omega
    obtain ⟨i1, i2⟩ := this v h2
    have : v.count 1 = m := by rw [i1] at h3; exact_mod_cast h3
    exact ⟨this, by omega, h1⟩

/-- **C99.** For `1 ≤ k ≤ d` the points listed are those with a one in front, followed by a vector of length `d` with entries zero and one that add up to `k`; none is listed twice. -/
theorem c99_points {d k : ℕ} (hk : 0 < k) (hkd : k ≤ d) : (generatePoints d k).Nodup ∧
    ∀ x, x ∈ generatePoints d k ↔ ∃ v : List ℤ, x = 1 :: v ∧ v.length = d ∧ (∀ e ∈ v, e = 0 ∨ e = 1) ∧ v.sum = k := by
  have h := add_words (d + 1) k (d - k) [] true hk (by omega) (by simp)
  rw [show ([] : List ℤ).length + k + (d - k) = d by simp; omega] at h
  refine ⟨h.1.map fun a b e => List.tail_eq_of_cons_eq e, fun x => ?_⟩
  have h2 := h.2
  simp only [List.nil_append, List.length_nil] at h2
  rw [generatePoints, List.mem_map]
  constructor
  · rintro ⟨v, hv, rfl⟩
    obtain ⟨v, rfl, hw, -⟩ := (h2 _).1 hv
    obtain ⟨a, b, c⟩ := isWord_iff.1 hw
    exact ⟨_, rfl, by omega, b, c⟩
  · rintro ⟨v, rfl, a, b, c⟩
    exact ⟨v, (h2 v).2 ⟨v, rfl, isWord_iff.2 ⟨by omega, b, c⟩, by simp⟩, rfl⟩

/-- **C99, what fails.** For `k = 0` and dimension at least two the vector (0,1,0,…,0), whose entries add up to one, is listed. -/
theorem c99_zero_violation (d : ℕ) : 1 :: 0 :: 1 :: List.replicate d 0 ∈ generatePoints (d + 2) 0 := by
  rw [generatePoints, List.mem_map]
  refine ⟨0 :: 1 :: List.replicate d 0, ?_, rfl⟩
  rw [addToPoints, if_pos rfl, if_neg (by omega)]
  have e : lastOne (List.replicate 0 1 ++ List.replicate (d + 2 - 0) 0) (d + 2 - 0) 0 = 0 := by
    rw [show d + 2 - 0 = (d + 1) + 1 from rfl, lastOne, if_neg (by simp), lastOne, if_pos ⟨by simp [List.replicate_succ], by simp⟩]
    simp
  rw [e, if_neg (by decide), if_pos (by simp)]
  refine List.mem_append_right _ ?_
  rw [show d + 2 - 1 - (0 : ℤ).toNat = d + 1 from rfl, show (0 : ℤ).toNat = 0 from rfl, slide]
  refine List.mem_cons.2 (.inl ?_)
  simp [List.replicate_succ]

/-- The points for `d = 4`, `k = 2`, in the order of the program. -/
theorem generatePoints_four_two : generatePoints 4 2 =
    [[1, 1, 1, 0, 0], [1, 1, 0, 1, 0], [1, 1, 0, 0, 1], [1, 0, 1, 1, 0], [1, 0, 1, 0, 1], [1, 0, 0, 1, 1]] := by decide +kernel

end Verif.Hypersimplex
