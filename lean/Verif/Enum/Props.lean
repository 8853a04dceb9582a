import Verif.Enum.Model
import Mathlib.Data.List.Basic
import Mathlib.Data.List.Nodup
import Mathlib.Data.List.Range
import Mathlib.Tactic.Ring
import Mathlib.Tactic.Linarith

/-! C12: enumeration of all integer tuples in a box. -/

namespace Latte.Enum

/-- mixed-radix value of the first `m` digits -/
def V (ub x : Nat → Nat) : Nat → Nat
  | 0 => 0
  | m + 1 => V ub x m * (ub m + 1) + x m

/-- number of tuples -/
def N (ub : Nat → Nat) : Nat → Nat
  | 0 => 1
  | m + 1 => N ub m * (ub m + 1)

theorem V_lt (ub x : Nat → Nat) (m : Nat) (h : ∀ i < m, x i ≤ ub i) : V ub x m < N ub m := by
  induction m with
  | zero => simp [V, N]
  | succ m ih =>
    have h1 := ih (fun i hi => h i (by omega))
    have h2 := h m (by omega)
    unfold V N
    calc V ub x m * (ub m + 1) + x m < V ub x m * (ub m + 1) + (ub m + 1) := by omega
      _ = (V ub x m + 1) * (ub m + 1) := by ring
      _ ≤ N ub m * (ub m + 1) := Nat.mul_le_mul_right _ h1

theorem V_inj (ub x y : Nat → Nat) (m : Nat) (hx : ∀ i < m, x i ≤ ub i) (hy : ∀ i < m, y i ≤ ub i)
    (h : V ub x m = V ub y m) : ∀ i < m, x i = y i := by
  induction m with
  | zero => intro i hi; omega
  | succ m ih =>
    unfold V at h
    have hxm := hx m (by omega)
    have hym := hy m (by omega)
    have h1 : x m = y m := by
      have := congrArg (· % (ub m + 1)) h
      simpa [Nat.add_mod, Nat.mod_eq_of_lt (show x m < ub m + 1 by omega), Nat.mod_eq_of_lt (show y m < ub m + 1 by omega)] using this
    have h2 : V ub x m = V ub y m := by
      rw [h1] at h
      have := Nat.add_right_cancel h
      exact Nat.eq_of_mul_eq_mul_right (by omega) this
    intro i hi
    by_cases hm : i = m
    · rw [hm]; exact h1
    · exact ih (fun i hi => hx i (by omega)) (fun i hi => hy i (by omega)) h2 i (by omega)

theorem V_congr (ub x y : Nat → Nat) (m : Nat) (h : ∀ i < m, x i = y i) : V ub x m = V ub y m := by
  induction m with
  | zero => rfl
  | succ m ih =>
    unfold V
    rw [ih (fun i hi => h i (by omega)), h m (by omega)]

theorem V_zero (ub x : Nat → Nat) (m : Nat) (h : ∀ i < m, x i = 0) : V ub x m = 0 := by
  induction m with
  | zero => rfl
  | succ m ih =>
    unfold V
    rw [ih (fun i hi => h i (by omega)), h m (by omega)]; simp

theorem V_full (ub x : Nat → Nat) (m : Nat) (h : ∀ i < m, x i = ub i) : V ub x m + 1 = N ub m := by
  induction m with
  | zero => rfl
  | succ m ih =>
    unfold V N
    rw [h m (by omega), ← ih (fun i hi => h i (by omega))]; ring

theorem V_carry (ub a b : Nat → Nat) (m len : Nat) (hm : m ≤ len) (h : V ub a m = V ub b m + 1)
    (ha : ∀ i, m ≤ i → i < len → a i = 0) (hb : ∀ i, m ≤ i → i < len → b i = ub i) :
    V ub a len = V ub b len + 1 := by
  induction len with
  | zero => have : m = 0 := by omega
            subst this; exact h
  | succ len ih =>
    by_cases he : m = len + 1
    · subst he; exact h
    · unfold V
      rw [ih (by omega) (fun i h1 h2 => ha i h1 (by omega)) (fun i h1 h2 => hb i h1 (by omega)), ha len (by omega) (by omega),
        hb len (by omega) (by omega)]
      ring

theorem carry_spec (len : Nat) (ub prev : Nat → Nat) (hbox : ∀ i < len, prev i ≤ ub i) (c : Nat) (next : Nat → Nat)
    (hc : c < len) (h1 : ∀ i ≤ c, next i = prev i) (h2 : ∀ i, c < i → i < len → next i = 0)
    (h3 : ∀ i, c ≤ i → i < len → prev i = ub i) :
    let r := carry len ub prev (c + 1) next
    (r.2 = len ∧ (∀ i < len, r.1 i ≤ ub i) ∧ V ub r.1 len = V ub prev len + 1) ∨
    (r.2 = 0 ∧ (∀ i < len, r.1 i = 0) ∧ (∀ i < len, prev i = ub i)) := by
  induction c generalizing next with
  | zero =>
    right
    unfold carry
    refine ⟨rfl, ?_, fun i hi => h3 i (by omega) hi⟩
    intro i hi
    simp [setZero, hi]
  | succ c ih =>
    have hz : ∀ i, c < i → i < len → setZero next (c + 1) len i = 0 := by
      intro i hi hl; simp [setZero, hl]; intro h; omega
    have hlow : ∀ i ≤ c, setZero next (c + 1) len i = prev i := by
      intro i hi
      simp only [setZero]
      rw [if_neg (by omega)]; exact h1 i (by omega)
    unfold carry
    simp only
    by_cases hlt : prev c < ub c
    · left
      rw [if_pos hlt]
      refine ⟨rfl, ?_, ?_⟩
      · intro i hi
        simp only
        by_cases hic : i = c
        · subst hic; rw [if_pos rfl, hlow i le_rfl]; omega
        · rw [if_neg hic]
          by_cases hi2 : i < c
          · rw [hlow i (by omega)]; exact hbox i hi
          · rw [hz i (by omega) hi]; omega
      · apply V_carry ub _ prev (c + 1) len (by omega)
        · unfold V
          simp only [if_true]
          rw [hlow c le_rfl, V_congr ub _ prev c]
          · ring
          · intro i hi
            rw [if_neg (by omega), hlow i (by omega)]
        · intro i hi hl
          simp only
          rw [if_neg (by omega), hz i (by omega) hl]
        · intro i hi hl
          exact h3 i hi hl
    · rw [if_neg hlt]
      apply ih (setZero next (c + 1) len) (by omega) hlow hz
      intro i hi hl
      by_cases hic : i = c
      · subst hic
        have := hbox i (by omega)
        omega
      · exact h3 i (by omega) hl

/-- reachable states before the end: digits within bounds, active column the last one -/
structure Ok (s : St) : Prop where
  pos : 0 < s.len
  box : ∀ i < s.len, s.prev i ≤ s.ub i
  col : s.col = s.len

/-- the final state -/
def Final (s : St) : Prop := s.col = 0 ∧ ∀ i < s.len, s.prev i = 0

theorem getNext_final (s : St) (h : Final s) : getNext s = .done := by
  unfold getNext isLast
  have : ((List.range s.len).all fun i => s.prev i == 0) = true := by
    rw [List.all_eq_true]
    intro i hi
    simpa using h.2 i (List.mem_range.1 hi)
  simp [this, h.1]

theorem answers_final (s : St) (h : Final s) (k : Nat) : answers s k = some none := by
  induction k with
  | zero => unfold answers; rw [getNext_final s h]
  | succ k ih => unfold answers; rw [getNext_final s h]; exact ih

theorem getNext_ok (s : St) (h : Ok s) :
    ∃ s' v, getNext s = .out s' v ∧ s'.len = s.len ∧ s'.ub = s.ub ∧ v = (List.range s.len).map s'.prev ∧
      ((Ok s' ∧ V s.ub s'.prev s.len = V s.ub s.prev s.len + 1) ∨
       (Final s' ∧ V s.ub s.prev s.len + 1 = N s.ub s.len)) := by
  obtain ⟨hpos, hbox, hcol⟩ := h
  have hl : isLast s = false := by
    unfold isLast
    simp only [Bool.and_eq_false_iff]
    right
    simp; omega
  have hcm : ∃ m, s.len = m + 1 := ⟨s.len - 1, by omega⟩
  obtain ⟨m, hm⟩ := hcm
  unfold getNext
  rw [hl]
  simp only [Bool.false_eq_true, if_false]
  rw [if_neg (by omega)]
  refine ⟨_, _, rfl, rfl, rfl, rfl, ?_⟩
  simp only
  have hcol' : s.col - 1 = m := by omega
  rw [hcol']
  by_cases he : s.prev m = s.ub m
  · rw [if_pos he, hcol, hm]
    have := carry_spec s.len s.ub s.prev hbox m s.prev (by omega) (fun _ _ => rfl) (fun i h1 h2 => by omega)
      (fun i h1 h2 => by rw [show i = m by omega]; exact he)
    simp only [hm] at this
    rcases this with ⟨h1, h2, h3⟩ | ⟨h1, h2, h3⟩
    · left
      exact ⟨⟨Nat.succ_pos m, h2, h1⟩, h3⟩
    · right
      refine ⟨⟨h1, h2⟩, ?_⟩
      exact V_full _ _ _ h3
  · rw [if_neg he]
    left
    have hlt := hbox m (by omega)
    refine ⟨⟨hpos, ?_, hcol⟩, ?_⟩
    · intro i hi
      simp only
      by_cases him : i = m
      · subst him; rw [if_pos rfl]; omega
      · rw [if_neg him]; exact hbox i hi
    · rw [hm]
      unfold V
      simp only [if_true]
      rw [V_congr s.ub _ s.prev m]
      · ring
      · intro i hi; simp [show i ≠ m by omega]

/-- the sequence of answers from a regular state -/
theorem answers_ok (s : St) (h : Ok s) (k : Nat) :
    (V s.ub s.prev s.len + k + 1 < N s.ub s.len → ∃ x : Nat → Nat, answers s k = some (some ((List.range s.len).map x)) ∧
      (∀ i < s.len, x i ≤ s.ub i) ∧ V s.ub x s.len = V s.ub s.prev s.len + k + 1) ∧
    (V s.ub s.prev s.len + k + 1 = N s.ub s.len → answers s k = some (some ((List.range s.len).map fun _ => 0))) ∧
    (N s.ub s.len < V s.ub s.prev s.len + k + 1 → answers s k = some none) := by
  induction k generalizing s with
  | zero =>
    obtain ⟨s', v, e, hlen, hub, hv, hor⟩ := getNext_ok s h
    have ha : answers s 0 = some (some v) := by unfold answers; rw [e]
    rw [ha]
    have hlt := V_lt s.ub s.prev s.len h.box
    refine ⟨fun hh => ?_, fun hh => ?_, fun hh => by omega⟩
    · rcases hor with ⟨hok, hV⟩ | ⟨_, hV⟩
      · have hb := hok.box
        rw [hlen, hub] at hb
        exact ⟨s'.prev, by rw [hv], hb, by omega⟩
      · omega
    · rcases hor with ⟨hok, hV⟩ | ⟨hfin, hV⟩
      · have := V_lt s'.ub s'.prev s'.len hok.box
        rw [hub, hlen] at this; omega
      · rw [hv]
        congr 2
        apply List.map_congr_left
        intro i hi
        have := hfin.2 i (by rw [hlen]; exact List.mem_range.1 hi)
        exact this
  | succ k ih =>
    obtain ⟨s', v, e, hlen, hub, hv, hor⟩ := getNext_ok s h
    have ha : answers s (k + 1) = answers s' k := by
      conv => lhs; unfold answers
      rw [e]
    rw [ha]
    rcases hor with ⟨hok, hV⟩ | ⟨hfin, hV⟩
    · have := ih s' hok
      rw [hub, hlen, hV] at this
      obtain ⟨h1, h2, h3⟩ := this
      refine ⟨fun hh => ?_, fun hh => h2 (by omega), fun hh => h3 (by omega)⟩
      obtain ⟨x, hx1, hx2, hx3⟩ := h1 (by omega)
      exact ⟨x, hx1, hx2, by omega⟩
    · rw [answers_final s' hfin]
      refine ⟨fun hh => by omega, fun hh => by omega, fun _ => rfl⟩

/-- **C12** For every dimension `l ≥ 1` and all bounds `u_i ≥ 1`, after the bound decrement the successive answers of
the enumerator are a list `L` without repetitions whose elements are exactly the integer tuples with
`0 ≤ x_i < u_i`, followed by the end marker forever; no array is overrun. -/
theorem c12_box_enumeration (l : Nat) (hl : 0 < l) (u : Nat → Nat) (hu : ∀ i < l, 0 < u i) :
    ∃ L : List (List Nat), L.Nodup ∧ (∀ x : List Nat, x ∈ L ↔ x.length = l ∧ ∀ i (hi : i < x.length), x[i] < u i) ∧
      ∀ k, answers (decrementUpperBound (create u l)) k = some L[k]? := by
  set s := decrementUpperBound (create u l) with hs
  have hlen : s.len = l := rfl
  have hub : ∀ i < l, s.ub i = u i - 1 := by
    intro i hi; simp [hs, decrementUpperBound, create, hi]
  have hprev : ∀ i, s.prev i = 0 := fun _ => rfl
  have hok : Ok s := ⟨hl, fun i hi => by rw [hprev]; omega, rfl⟩
  have hV0 : V s.ub s.prev s.len = 0 := V_zero _ _ _ (fun i _ => hprev i)
  have hans := answers_ok s hok
  rw [hV0, hlen] at hans
  have hNpos : 0 < N s.ub l := Nat.lt_of_le_of_lt (Nat.zero_le _) (V_lt s.ub (fun _ => 0) l (by intro i _; simp))
  -- for every k < N an answer with value (k+1) mod N
  have hex : ∀ k, k < N s.ub l → ∃ x : Nat → Nat, answers s k = some (some ((List.range l).map x)) ∧
      (∀ i < l, x i ≤ s.ub i) ∧ V s.ub x l = (if k + 1 = N s.ub l then 0 else k + 1) := by
    intro k hk
    obtain ⟨h1, h2, _⟩ := hans k
    by_cases he : k + 1 = N s.ub l
    · refine ⟨fun _ => 0, h2 (by omega), fun i _ => Nat.zero_le _, ?_⟩
      rw [if_pos he]; exact V_zero _ _ _ (fun _ _ => rfl)
    · obtain ⟨x, a, b, c⟩ := h1 (by omega)
      exact ⟨x, a, b, by rw [if_neg he, c]; omega⟩
  choose! f hf1 hf2 hf3 using hex
  refine ⟨(List.range (N s.ub l)).map (fun k => (List.range l).map (f k)), ?_, ?_, ?_⟩
  · apply List.Nodup.map_on _ List.nodup_range
    intro a ha b hb hab
    rw [List.mem_range] at ha hb
    have h1 : V s.ub (f a) l = V s.ub (f b) l := by
      apply V_congr
      intro i hi
      have := congrArg (fun L => L[i]?) hab
      simpa [hi] using this
    rw [hf3 a ha, hf3 b hb] at h1
    split_ifs at h1 <;> omega
  · intro x
    rw [List.mem_map]
    constructor
    · rintro ⟨k, hk, rfl⟩
      rw [List.mem_range] at hk
      refine ⟨by simp, ?_⟩
      intro i hi
      simp only [List.length_map, List.length_range] at hi
      simp only [List.getElem_map, List.getElem_range]
      have := hf2 k hk i hi
      rw [hub i hi] at this
      have := hu i hi
      omega
    · rintro ⟨hxl, hx⟩
      set g : Nat → Nat := fun i => x.getD i 0 with hg
      have hgi : ∀ i (hi : i < l), g i = x[i]'(by omega) := by
        intro i hi; simp [hg, List.getD, List.getElem?_eq_getElem (show i < x.length by omega)]
      have hgb : ∀ i < l, g i ≤ s.ub i := by
        intro i hi
        rw [hgi i hi, hub i hi]
        have := hx i (by omega)
        omega
      have hVlt := V_lt s.ub g l hgb
      have hk : ∃ k, k < N s.ub l ∧ (if k + 1 = N s.ub l then 0 else k + 1) = V s.ub g l := by
        by_cases h0 : V s.ub g l = 0
        · exact ⟨N s.ub l - 1, by omega, by rw [if_pos (by omega), h0]⟩
        · exact ⟨V s.ub g l - 1, by omega, by rw [if_neg (by omega)]; omega⟩
      obtain ⟨k, hkl, hkv⟩ := hk
      refine ⟨k, List.mem_range.2 hkl, ?_⟩
      have := V_inj s.ub (f k) g l (hf2 k hkl) hgb (by rw [hf3 k hkl, hkv])
      apply List.ext_getElem
      · simp [hxl]
      · intro i h1 h2
        simp only [List.length_map, List.length_range] at h1
        simp only [List.getElem_map, List.getElem_range]
        rw [this i h1, hgi i h1]
  · intro k
    by_cases hk : k < N s.ub l
    · rw [hf1 k hk, List.getElem?_map, List.getElem?_range hk]; rfl
    · rw [(hans k).2.2 (by omega), List.getElem?_eq_none]
      simp; omega

/-- non-vacuity: bounds (2, 2) -/
example : (List.range 5).map (answers (decrementUpperBound (create (fun _ => 2) 2))) =
    [some (some [0, 1]), some (some [1, 0]), some (some [1, 1]), some (some [0, 0]), some none] := by
  decide +kernel

end Latte.Enum
