import Mathlib.Data.Nat.Choose.Basic
import Mathlib.Tactic.Ring
import Mathlib.Tactic.Linarith

/-! Model of `Power_ZZ` and `AChooseB` (code/latte/integration/residue.cpp:7-41) and property C27. `ZZ` is `Int`; a write
outside `int bi[20]` is `none`; the `int` arguments are not assumed to be bounded. -/

namespace Latte.Residue

/-- residue.cpp:13-18 the `while` loop storing the binary digits, least significant first; `digit` entries are already
stored in the array of 20; writing entry 20 is out of bounds. -/
def bitLoop (b : Nat) (digit : Nat) (bi : List Nat) : Option (List Nat) :=
  if h : b > 0 then
    if digit < 20 then bitLoop (b / 2) (digit + 1) (bi ++ [b % 2]) else none
  else some bi
termination_by b
decreasing_by omega

/-- residue.cpp:20-25 loop from the second most significant digit down; the list holds the digits still to be
processed, most significant first. -/
def sqLoop (a : Int) : List Nat → Int → Int
  | [], t => t
  | d :: ds, t => sqLoop a ds (if d = 1 then t * t * a else t * t)

/-- residue.cpp:7-27 `Power_ZZ`. A negative exponent stores no digit. -/
def powerZZ (a : Int) (b : Int) : Option Int :=
  if b = 0 then some 1
  else (bitLoop b.toNat 0 []).map fun bi => sqLoop a bi.reverse.tail a

/-- residue.cpp:36-39 loop, `c` iterations left from index `i`. -/
def chooseLoop (a : Int) : Nat → Int → Int → Int
  | 0, _, t => t
  | c + 1, i, t => chooseLoop a c (i + 1) ((t * (a - i + 1)).fdiv i)

/-- residue.cpp:29-41 `AChooseB`. -/
def aChooseB (a b : Int) : Int :=
  if b > a then 0
  else
    let b := if 2 * b > a then a - b else b
    chooseLoop a b.toNat 1 1

/-! ### C27 -/

/-- value of a digit list, most significant first -/
def valMS (ds : List Nat) : Nat := ds.foldl (fun v d => 2 * v + d) 0

theorem sqLoop_eq (a : Int) (ds : List Nat) : ∀ (v : Nat) (t : Int), (∀ d ∈ ds, d < 2) → t = a ^ v →
    sqLoop a ds t = a ^ (ds.foldl (fun v d => 2 * v + d) v) := by
  induction ds with
  | nil => intro v t _ h; simpa [sqLoop] using h
  | cons d ds ih =>
    intro v t hd ht
    have h2 : d < 2 := hd d (by simp)
    rw [sqLoop, List.foldl_cons]
    apply ih _ _ (fun x hx => hd x (by simp [hx]))
    rcases (by omega : d = 0 ∨ d = 1) with rfl | rfl
    · rw [if_neg (by omega), ht]; ring
    · rw [if_pos rfl, ht]; ring

theorem foldl_lin (ds : List Nat) : ∀ v, ds.foldl (fun v d => 2 * v + d) v = 2 ^ ds.length * v + valMS ds := by
  induction ds with
  | nil => intro v; simp [valMS]
  | cons d ds ih =>
    intro v
    unfold valMS
    rw [List.foldl_cons, List.foldl_cons, ih, ih (2 * 0 + d), List.length_cons]
    ring

theorem bitLoop_spec (b : Nat) : ∀ (digit : Nat) (bi : List Nat),
    (∀ L, b < 2 ^ L → digit + L ≤ 20 → ∃ bs, bitLoop b digit bi = some (bi ++ bs) ∧ valMS bs.reverse = b ∧ (∀ d ∈ bs, d < 2) ∧
      (0 < b → bs.reverse.head? = some 1)) ∧
    (∀ L, 2 ^ L ≤ b → 20 ≤ digit + L → bitLoop b digit bi = none) := by
  induction b using Nat.strong_induction_on with
  | _ b ih =>
    intro digit bi
    constructor
    · intro L hb hL
      unfold bitLoop
      by_cases h : b > 0
      · rw [dif_pos h]
        cases L with
        | zero => simp at hb; omega
        | succ L =>
          rw [if_pos (by omega)]
          obtain ⟨bs, e, hv, hd, hh⟩ := (ih (b / 2) (by omega) (digit + 1) (bi ++ [b % 2])).1 L (by rw [pow_succ] at hb; omega) (by omega)
          refine ⟨(b % 2) :: bs, by rw [e]; simp, ?_, ?_, ?_⟩
          · rw [List.reverse_cons]
            have e2 : valMS (bs.reverse ++ [b % 2]) = 2 * valMS bs.reverse + b % 2 := by simp [valMS]
            rw [e2, hv]; omega
          · intro d hdm
            rcases List.mem_cons.1 hdm with rfl | hm
            · omega
            · exact hd d hm
          · intro _
            rw [List.reverse_cons, List.head?_append]
            by_cases hb2 : 0 < b / 2
            · rw [hh hb2]; rfl
            · have hb1 : b = 1 := by omega
              subst hb1
              have : bs = [] := by
                rw [show (1 : Nat) / 2 = 0 from rfl] at e
                unfold bitLoop at e
                simpa using e
              subst this; rfl
      · rw [dif_neg h]
        have : b = 0 := by omega
        subst this
        exact ⟨[], by simp, rfl, by simp, by omega⟩
    · intro L hb hL
      have hpos : 0 < b := lt_of_lt_of_le (by positivity) hb
      unfold bitLoop
      rw [dif_pos hpos]
      by_cases hdg : digit < 20
      · rw [if_pos hdg]
        cases L with
        | zero => omega
        | succ L =>
          apply (ih (b / 2) (by omega) (digit + 1) _).2 L
          · rw [pow_succ] at hb; omega
          · omega
      · rw [if_neg hdg]

/-- C27: the power helper is exact for all bases and all exponents `0 ≤ b < 2^20`. -/
theorem c27_power_exact (a : Int) (b : Nat) (hb : b < 2 ^ 20) : powerZZ a b = some (a ^ b) := by
  unfold powerZZ
  by_cases h0 : (b : Int) = 0
  · rw [if_pos h0]
    have : b = 0 := by exact_mod_cast h0
    simp [this]
  · rw [if_neg h0]
    obtain ⟨bs, e, hv, hd, hh⟩ := (bitLoop_spec b 0 []).1 20 hb (by omega)
    rw [Int.toNat_natCast, e]
    simp only [List.nil_append, Option.map_some]
    have hh' := hh (by omega)
    cases hr : bs.reverse with
    | nil => rw [hr] at hh'; simp at hh'
    | cons x xs =>
      rw [hr] at hh' hv
      have hx : x = 1 := by simpa using hh'
      subst hx
      rw [List.tail_cons, sqLoop_eq a xs 1 a (fun d hdm => hd d (by
        have : d ∈ bs.reverse := by rw [hr]; simp [hdm]
        simpa using this)) (by simp)]
      congr 2

/-- C27: for every larger exponent the helper writes outside its array. -/
theorem c27_power_out_of_bounds (a : Int) (b : Nat) (hb : 2 ^ 20 ≤ b) : powerZZ a b = none := by
  unfold powerZZ
  rw [if_neg (by have : 0 < b := lt_of_lt_of_le (by positivity) hb; omega), Int.toNat_natCast,
    (bitLoop_spec b 0 []).2 20 hb (by omega)]
  rfl

/-- a negative exponent yields the base itself. -/
theorem c27_power_negative (a b : Int) (hb : b < 0) : powerZZ a b = some a := by
  unfold powerZZ
  rw [if_neg (by omega), show b.toNat = 0 by omega]
  unfold bitLoop
  simp [sqLoop]

theorem chooseLoop_eq (a : Nat) : ∀ (c i : Nat), i + c ≤ a →
    chooseLoop a c ((i : Int) + 1) (a.choose i : Int) = (a.choose (i + c) : Int) := by
  intro c
  induction c with
  | zero => intro i _; rfl
  | succ c ih =>
    intro i hi
    rw [chooseLoop]
    have key : ((a.choose i : Int) * ((a : Int) - ((i : Int) + 1) + 1)).fdiv ((i : Int) + 1) = (a.choose (i + 1) : Int) := by
      have h := Nat.choose_succ_right_eq a i
      have h' : (a.choose i : Int) * ((a : Int) - ((i : Int) + 1) + 1) = (a.choose (i + 1) : Int) * ((i : Int) + 1) := by
        have : ((a - i : Nat) : Int) = (a : Int) - i := by omega
        have h2 : ((a.choose (i + 1) * (i + 1) : Nat) : Int) = ((a.choose i * (a - i) : Nat) : Int) := by rw [h]
        push_cast [this] at h2
        linarith
      rw [h', Int.fdiv_eq_ediv_of_nonneg _ (by omega)]
      exact Int.mul_ediv_cancel _ (by omega)
    rw [key]
    have := ih (i + 1) (by omega)
    rw [show i + (c + 1) = i + 1 + c by omega, ← this]
    push_cast
    rfl

/-- C27: the binomial helper returns the binomial coefficient for all non-negative arguments (also `b > a`). -/
theorem c27_choose_exact (a b : Nat) : aChooseB a b = (a.choose b : Int) := by
  unfold aChooseB
  by_cases h : (b : Int) > a
  · rw [if_pos h, Nat.choose_eq_zero_of_lt (by exact_mod_cast h)]; rfl
  · rw [if_neg h]
    have hba : b ≤ a := by omega
    simp only
    by_cases h2 : 2 * (b : Int) > a
    · rw [if_pos h2]
      have := chooseLoop_eq a (a - b) 0 (by omega)
      rw [show ((a : Int) - b).toNat = a - b by omega]
      simp only [Nat.choose_zero_right, Nat.zero_add] at this
      rw [Nat.choose_symm hba] at this
      exact_mod_cast this
    · rw [if_neg h2]
      have := chooseLoop_eq a b 0 (by omega)
      rw [Int.toNat_natCast]
      simp only [Nat.choose_zero_right, Nat.zero_add] at this
      exact_mod_cast this

/-- outside its range: a negative lower argument not exceeding the upper one gives 1 (the exact value would be 0). -/
theorem c27_choose_negative (a b : Int) (hb : b < 0) (hab : 2 * b ≤ a) (h : b ≤ a) : aChooseB a b = 1 := by
  unfold aChooseB
  rw [if_neg (by omega)]
  simp only
  rw [if_neg (by omega), show b.toNat = 0 by omega]
  rfl

/-- the combination used by the residue code for a factor of multiplicity `m ≥ 1`: `C(m+j-1, j)`. -/
theorem aChooseB_mult (m j : Nat) (hm : 1 ≤ m) : aChooseB ((m : Int) + j - 1) j = ((m + j - 1).choose j : Int) := by
  have := c27_choose_exact (m + j - 1) j
  rw [← this]
  congr 1
  omega

/-- non-vacuity -/
example : powerZZ (-3) 5 = some (-243) := by rw [show (5 : Int) = ((5 : Nat) : Int) from rfl, c27_power_exact _ _ (by norm_num)]; norm_num
example : aChooseB 10 7 = 120 := by decide

end Latte.Residue
