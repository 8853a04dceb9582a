import Verif.Rational.Model
import Mathlib.Data.Rat.Lemmas
import Mathlib.Data.Nat.Prime.Basic
import Mathlib.Tactic.FieldSimp
import Mathlib.Tactic.Push

namespace Latte.Rational

/-- value of a stored pair -/
def RatN.val (r : RatN) : ℚ := (r.num : ℚ) / (r.den : ℚ)

/-- lowest terms, positive denominator -/
def Canonical (r : RatN) : Prop := 0 < r.den ∧ Int.gcd r.num r.den = 1

theorem Canonical.eq_num_den {r : RatN} (h : Canonical r) :
    r.num = r.val.num ∧ r.den = r.val.den := by
  obtain ⟨h1, h2⟩ := h
  have hc : Nat.Coprime r.num.natAbs r.den.natAbs := h2
  refine ⟨(Rat.num_div_eq_of_coprime h1 hc).symm, (Rat.den_div_eq_of_coprime h1 hc).symm⟩

theorem canonicalize_spec (n d : Int) (hd : d ≠ 0) :
    Canonical (canonicalize ⟨n, d⟩) ∧ (canonicalize ⟨n, d⟩).val = (n : ℚ) / d := by
  -- positive case
  have pos : ∀ n d : Int, 0 < d →
      Canonical (if ((Int.gcd n d : Nat) : Int) ≠ 1 then (⟨n / (Int.gcd n d : Nat), d / (Int.gcd n d : Nat)⟩ : RatN) else ⟨n, d⟩) ∧
      (if ((Int.gcd n d : Nat) : Int) ≠ 1 then (⟨n / (Int.gcd n d : Nat), d / (Int.gcd n d : Nat)⟩ : RatN) else ⟨n, d⟩).val = (n : ℚ) / d := by
    intro n d hd
    have hg : 0 < Int.gcd n d := Int.gcd_pos_of_ne_zero_right _ hd.ne'
    by_cases h : ((Int.gcd n d : Nat) : Int) = 1
    · rw [if_neg (by simpa using h)]
      have h1 := h
      exact ⟨⟨hd, by exact_mod_cast h1⟩, rfl⟩
    · rw [if_pos h]
      have hgz : (0 : Int) < (Int.gcd n d : Nat) := by exact_mod_cast hg
      refine ⟨⟨?_, ?_⟩, ?_⟩
      · exact Int.ediv_pos_of_pos_of_dvd hd hgz.le (Int.gcd_dvd_right ..)
      · exact Int.gcd_ediv_gcd_ediv_gcd hg
      · unfold RatN.val
        have hq : ((Int.gcd n d : Nat) : ℚ) ≠ 0 := by exact_mod_cast hg.ne'
        rw [Int.cast_div (Int.gcd_dvd_left ..) (by exact_mod_cast hg.ne'),
          Int.cast_div (Int.gcd_dvd_right ..) (by exact_mod_cast hg.ne')]
        push_cast
        have hdq : (d : ℚ) ≠ 0 := by exact_mod_cast hd.ne'
        field_simp
  unfold canonicalize
  rw [if_neg hd]
  rcases lt_or_gt_of_ne hd with h | h
  · simp only [if_pos h]
    have := pos (n * -1) (d * -1) (by omega)
    refine ⟨this.1, this.2.trans ?_⟩
    push_cast
    rw [mul_neg_one, mul_neg_one, neg_div_neg_eq]
  · simp only [if_neg (not_lt.mpr h.le)]
    exact pos n d h

theorem canonicalize_zero_den (n : Int) : canonicalize ⟨n, 0⟩ = ⟨n, 1⟩ := by
  simp [canonicalize]

theorem mk'_spec (n d : Int) (hd : d ≠ 0) :
    Canonical (mk' n d) ∧ (mk' n d).val = (n : ℚ) / d := canonicalize_spec n d hd

theorem canonical_den_q {r : RatN} (h : Canonical r) : (r.den : ℚ) ≠ 0 := by
  exact_mod_cast h.1.ne'

theorem add_spec {a b : RatN} (ha : Canonical a) (hb : Canonical b) :
    ∃ r, add a b = some r ∧ Canonical r ∧ r.val = a.val + b.val := by
  have hb0 : b.den ≠ 0 := hb.1.ne'
  have h := canonicalize_spec (a.num * b.den + b.num * a.den) (a.den * b.den)
    (mul_ne_zero ha.1.ne' hb0)
  refine ⟨_, by simp [add, addZ, hb0], h.1, h.2.trans ?_⟩
  have := canonical_den_q ha
  have := canonical_den_q hb
  unfold RatN.val
  push_cast
  field_simp

theorem sub_spec {a b : RatN} (ha : Canonical a) (hb : Canonical b) :
    ∃ r, sub a b = some r ∧ Canonical r ∧ r.val = a.val - b.val := by
  have hb0 : b.den ≠ 0 := hb.1.ne'
  have h := canonicalize_spec (a.num * b.den + (b.num * -1) * a.den) (a.den * b.den)
    (mul_ne_zero ha.1.ne' hb0)
  refine ⟨_, by simp [sub, addZ, hb0], h.1, h.2.trans ?_⟩
  have := canonical_den_q ha
  have := canonical_den_q hb
  unfold RatN.val
  push_cast
  field_simp
  ring

theorem mul_spec {a b : RatN} (ha : Canonical a) (hb : Canonical b) :
    Canonical (mul a b) ∧ (mul a b).val = a.val * b.val := by
  have h := canonicalize_spec (a.num * b.num) (a.den * b.den) (mul_ne_zero ha.1.ne' hb.1.ne')
  refine ⟨h.1, h.2.trans ?_⟩
  unfold RatN.val; push_cast
  rw [mul_div_mul_comm]

theorem mulZ_spec {a : RatN} (ha : Canonical a) (z : Int) :
    Canonical (mulZ a z) ∧ (mulZ a z).val = a.val * z := by
  have h := canonicalize_spec (a.num * z) a.den ha.1.ne'
  refine ⟨h.1, h.2.trans ?_⟩
  unfold RatN.val; push_cast; ring

theorem val_ne_zero_iff {a : RatN} (ha : Canonical a) : a.val ≠ 0 ↔ a.num ≠ 0 := by
  unfold RatN.val
  rw [div_ne_zero_iff]
  have := canonical_den_q ha
  simp [this]

theorem div_spec {a b : RatN} (ha : Canonical a) (hb : Canonical b) (h0 : b.val ≠ 0) :
    Canonical (div a b) ∧ (div a b).val = a.val / b.val := by
  have hbn := (val_ne_zero_iff hb).1 h0
  have h := canonicalize_spec (a.num * b.den) (a.den * b.num) (mul_ne_zero ha.1.ne' hbn)
  refine ⟨h.1, h.2.trans ?_⟩
  have := canonical_den_q ha
  have := canonical_den_q hb
  have : (b.num : ℚ) ≠ 0 := by exact_mod_cast hbn
  unfold RatN.val; push_cast; field_simp

theorem divZ_spec {a : RatN} (ha : Canonical a) (z : Int) (hz : z ≠ 0) :
    Canonical (divZ a z) ∧ (divZ a z).val = a.val / z := by
  have h := canonicalize_spec (a.num) (a.den * z) (mul_ne_zero ha.1.ne' hz)
  refine ⟨h.1, h.2.trans ?_⟩
  unfold RatN.val; push_cast; rw [div_div]

theorem changeSign_spec {a : RatN} (ha : Canonical a) :
    Canonical (changeSign a) ∧ (changeSign a).val = -a.val := by
  refine ⟨⟨ha.1, ?_⟩, ?_⟩
  · have := ha.2
    simpa [changeSign] using this
  · unfold RatN.val changeSign; push_cast; ring

theorem power_spec {a : RatN} (ha : Canonical a) (e : Int) (h0 : e < 0 → a.val ≠ 0) :
    ∃ r, power a e = some r ∧ Canonical r ∧ r.val = a.val ^ e := by
  unfold power
  rcases lt_trichotomy e 0 with he | he | he
  · have hn := (val_ne_zero_iff ha).1 (h0 he)
    have h := canonicalize_spec (a.den ^ (e * -1).toNat) (a.num ^ (e * -1).toNat) (pow_ne_zero _ hn)
    refine ⟨_, by rw [if_neg (by omega), if_pos he, if_neg hn], h.1, h.2.trans ?_⟩
    obtain ⟨k, rfl⟩ : ∃ k : Nat, e = -(k : Int) := ⟨(-e).toNat, by omega⟩
    have : (-(k : Int) * -1).toNat = k := by omega
    rw [this, zpow_neg, zpow_natCast]
    unfold RatN.val
    push_cast
    rw [div_pow, inv_div]
  · subst he
    have h := canonicalize_spec 1 1 one_ne_zero
    refine ⟨_, by simp, h.1, h.2.trans ?_⟩
    simp
  · have h := canonicalize_spec (a.num ^ e.toNat) (a.den ^ e.toNat) (pow_ne_zero _ ha.1.ne')
    refine ⟨_, by rw [if_pos he], h.1, h.2.trans ?_⟩
    obtain ⟨k, rfl⟩ : ∃ k : Nat, e = (k : Int) := ⟨e.toNat, by omega⟩
    rw [Int.toNat_natCast, zpow_natCast]
    unfold RatN.val
    push_cast
    rw [div_pow]

theorem canonical_ext {a b : RatN} (ha : Canonical a) (hb : Canonical b) (h : a.val = b.val) : a = b := by
  have h1 := ha.eq_num_den
  have h2 := hb.eq_num_den
  rw [h] at h1
  cases a; cases b
  simp only [RatN.mk.injEq]
  exact ⟨h1.1.trans h2.1.symm, h1.2.trans h2.2.symm⟩

/-- canonicalising a canonical value changes nothing -/
theorem canonicalize_of_canonical {a : RatN} (ha : Canonical a) : canonicalize a = a := by
  have h := canonicalize_spec a.num a.den ha.1.ne'
  exact canonical_ext h.1 ha h.2

theorem divSelf_spec {a : RatN} (ha : Canonical a) (h0 : a.val ≠ 0) :
    Canonical (divSelf a) ∧ (divSelf a).val = 1 / a.den := by
  have hn := (val_ne_zero_iff ha).1 h0
  have h := canonicalize_spec (a.num * a.den) (a.den * (a.num * a.den))
    (mul_ne_zero ha.1.ne' (mul_ne_zero hn ha.1.ne'))
  refine ⟨h.1, h.2.trans ?_⟩
  have := canonical_den_q ha
  have : (a.num : ℚ) ≠ 0 := by exact_mod_cast hn
  push_cast; field_simp

/-! ### binary gcd -/

theorem gcd_two_mul_left_odd (a b : Nat) (hb : b % 2 = 1) : Nat.gcd (2 * a) b = Nat.gcd a b := by
  apply Nat.Coprime.gcd_mul_left_cancel
  exact (Nat.Prime.coprime_iff_not_dvd Nat.prime_two).2 (by omega)

theorem myGCDLoop_spec : ∀ (fuel a b k : Nat), a + b < fuel →
    myGCDLoop fuel (a : Int) (b : Int) k = some ((Nat.gcd a b * 2 ^ k : Nat) : Int) := by
  intro fuel
  induction fuel with
  | zero => intro a b k h; omega
  | succ f ih =>
    intro a b k h
    unfold myGCDLoop
    by_cases ha : a = 0
    · subst ha; simp
    rw [if_neg (by exact_mod_cast ha)]
    by_cases hb : b = 0
    · subst hb; simp
    rw [if_neg (by exact_mod_cast hb)]
    by_cases ha2 : a % 2 = 0
    · rw [if_pos (by omega)]
      obtain ⟨a', rfl⟩ : ∃ a', a = 2 * a' := ⟨a / 2, by omega⟩
      have e1 : ((2 * a' : Nat) : Int) / 2 = (a' : Nat) := by omega
      by_cases hb2 : b % 2 = 0
      · rw [if_pos (by omega)]
        obtain ⟨b', rfl⟩ : ∃ b', b = 2 * b' := ⟨b / 2, by omega⟩
        have e2 : ((2 * b' : Nat) : Int) / 2 = (b' : Nat) := by omega
        rw [e1, e2, ih a' b' (k + 1) (by omega), Nat.gcd_mul_left]
        congr 2; ring
      · rw [if_neg (by omega), e1, ih a' b k (by omega), gcd_two_mul_left_odd _ _ (by omega)]
    · rw [if_neg (by omega)]
      by_cases hb2 : b % 2 = 0
      · rw [if_pos (by omega)]
        obtain ⟨b', rfl⟩ : ∃ b', b = 2 * b' := ⟨b / 2, by omega⟩
        have e2 : ((2 * b' : Nat) : Int) / 2 = (b' : Nat) := by omega
        rw [e2, ih a b' k (by omega), Nat.gcd_comm a (2 * b'), gcd_two_mul_left_odd _ _ (by omega),
          Nat.gcd_comm]
      · rw [if_neg (by omega)]
        by_cases hlt : a < b
        · rw [if_pos (by exact_mod_cast hlt)]
          obtain ⟨c, hc⟩ : ∃ c, b = a + 2 * c := ⟨(b - a) / 2, by omega⟩
          have e : ((b : Int) - a) / 2 = (c : Nat) := by omega
          rw [e, ih a c k (by omega)]
          congr 3
          rw [hc, Nat.gcd_self_add_right, Nat.gcd_comm a (2 * c), gcd_two_mul_left_odd _ _ (by omega), Nat.gcd_comm]
        · rw [if_neg (by exact_mod_cast hlt)]
          obtain ⟨c, hc⟩ : ∃ c, a = 2 * c + b := ⟨(a - b) / 2, by omega⟩
          have e : ((a : Int) - b) / 2 = (c : Nat) := by omega
          rw [e, ih c b k (by omega)]
          congr 3
          rw [hc, Nat.gcd_add_self_left, gcd_two_mul_left_odd _ _ (by omega)]

end Latte.Rational
