import Verif.Lawrence.Model
import Mathlib.Algebra.Polynomial.Basic
import Mathlib.Algebra.Polynomial.Eval.Defs
import Mathlib.Data.List.GetD
import Mathlib.Tactic.Ring

/-! C39: `updatePowers` preserves the product of the factors, merges equal factors and puts the pole first. -/

namespace Latte.Lawrence

section generic
variable {M : Type} [CommMonoid M] (g : Int → Int → M) (h : Int → M) (x : M)

/-- meaning of an entry in a commutative monoid: unprocessed entries stand for their factor, negative powers for 1,
entries with constant 0 for `h(epsilon) x^power`. -/
def val (q : LP) : M :=
  if q.power < 0 then 1
  else if q.power = 0 then g q.constant q.epsilon
  else if q.constant = 0 then h q.epsilon * x ^ q.power.toNat
  else g q.constant q.epsilon ^ q.power.toNat

def prodVal (qs : List LP) : M := (qs.map (val g h x)).prod

theorem markLoop_prod (c e : Int) (ps : List LP) : ∀ k : Nat,
    ∃ j : Nat, (markLoop c e ps k).2 = (k : Int) + j ∧
      prodVal g h x ps = g c e ^ j * prodVal g h x (markLoop c e ps k).1 := by
  induction ps with
  | nil => intro k; exact ⟨0, by simp [markLoop], by simp [markLoop]⟩
  | cons p ps ih =>
    intro k
    unfold markLoop
    split_ifs with hc
    · obtain ⟨j, h1, h2⟩ := ih (k + 1)
      push_cast at h1 h2
      refine ⟨j + 1, by simp only [h1]; push_cast; ring, ?_⟩
      obtain ⟨rfl, rfl, h0⟩ := hc
      unfold prodVal at h2 ⊢
      simp only [List.map_cons, List.prod_cons]
      rw [h2]
      have e1 : val g h x p = g p.constant p.epsilon := by unfold val; simp [h0]
      have e2 : val g h x { p with power := -1 } = 1 := by unfold val; simp
      rw [e1, e2, pow_succ', one_mul, mul_assoc]
    · obtain ⟨j, h1, h2⟩ := ih k
      refine ⟨j, h1, ?_⟩
      unfold prodVal at h2 ⊢
      simp only [List.map_cons, List.prod_cons]
      rw [h2, mul_left_comm]

theorem markLoop_mem (c e : Int) (ps : List LP) : ∀ k : Int, (∀ q ∈ ps, q.power = 0 ∨ q.power = -1) →
    ∀ q ∈ (markLoop c e ps k).1, (q.power = 0 ∨ q.power = -1) ∧ (q.power = 0 → q ∈ ps ∧ ¬(q.constant = c ∧ q.epsilon = e)) := by
  induction ps with
  | nil => intro k _ q hq; simp [markLoop] at hq
  | cons p ps ih =>
    intro k hps q hq
    have hps' : ∀ q ∈ ps, q.power = 0 ∨ q.power = -1 := fun q hq => hps q (by simp [hq])
    unfold markLoop at hq
    split_ifs at hq with hc
    · rcases List.mem_cons.1 hq with rfl | hq
      · exact ⟨Or.inr rfl, fun h => by simp at h⟩
      · obtain ⟨a, b⟩ := ih _ hps' q hq
        exact ⟨a, fun h => ⟨by simp [(b h).1], (b h).2⟩⟩
    · rcases List.mem_cons.1 hq with rfl | hq
      · exact ⟨hps _ (by simp), fun h => ⟨by simp, fun h' => hc ⟨h'.1, h'.2, h⟩⟩⟩
      · obtain ⟨a, b⟩ := ih _ hps' q hq
        exact ⟨a, fun h => ⟨by simp [(b h).1], (b h).2⟩⟩

theorem markLoop_keep (c e : Int) (hc0 : c ≠ 0) (q : LP) (hq : q.constant = 0) (l : List LP) : ∀ k : Int, q ∈ l →
    q ∈ (markLoop c e l k).1 := by
  induction l with
  | nil => intro k hl; simp at hl
  | cons y ys ihy =>
    intro k hl
    unfold markLoop
    split_ifs with hc
    · rcases List.mem_cons.1 hl with rfl | hl
      · exact absurd (hc.1 ▸ hq) hc0
      · simp [ihy _ hl]
    · rcases List.mem_cons.1 hl with rfl | hl
      · simp
      · simp [ihy _ hl]

/-- two processed entries that were not merged away are different factors -/
def Diff (a b : LP) : Prop := 1 ≤ a.power → 1 ≤ b.power → a.constant ≠ 0 → ¬(a.constant = b.constant ∧ a.epsilon = b.epsilon)

def Nz (q : LP) : Prop := 1 ≤ q.power → q.constant ≠ 0

/-- invariant of the loop over `i` -/
structure Inv (done : List LP) (loc : Option Nat) (rest : List LP) : Prop where
  restPow : ∀ q ∈ rest, q.power = 0 ∨ q.power = -1
  donePow : ∀ q ∈ done, q.power = -1 ∨ 1 ≤ q.power
  distinct : done.Pairwise Diff
  fresh : ∀ q ∈ done, 1 ≤ q.power → q.constant ≠ 0 → ∀ r ∈ rest, r.power = 0 → ¬(r.constant = q.constant ∧ r.epsilon = q.epsilon)
  locNone : loc = none → ∀ q ∈ done, Nz q
  locSome : ∀ k, loc = some k → ∃ A z B, done = A ++ z :: B ∧ k = A.length ∧ z.constant = 0 ∧ 1 ≤ z.power ∧ ∀ q ∈ A ++ B, Nz q

theorem prodVal_append (a b : List LP) : prodVal g h x (a ++ b) = prodVal g h x a * prodVal g h x b := by
  simp [prodVal]

theorem prodVal_cons (a : LP) (b : List LP) : prodVal g h x (a :: b) = val g h x a * prodVal g h x b := by
  simp [prodVal]

theorem modify_mid (A B : List LP) (z : LP) (f : LP → LP) : (A ++ z :: B).modify A.length f = A ++ f z :: B := by
  induction A with
  | nil => simp
  | cons a A ih => simp [ih]

theorem updLoop_spec (hg : ∀ e, g 0 e = h e * x) (hm : ∀ a b, h (a * b) = h a * h b) (rest : List LP) :
    ∀ (n : Nat), rest.length = n → ∀ (done : List LP) (loc : Option Nat), Inv done loc rest →
    Inv (updLoop done loc rest).1 (updLoop done loc rest).2 [] ∧
    prodVal g h x (updLoop done loc rest).1 = prodVal g h x done * prodVal g h x rest ∧
    (updLoop done loc rest).1.length = done.length + rest.length ∧
    ((∃ q ∈ rest, q.power = 0 ∧ q.constant = 0) ∨ loc ≠ none → (updLoop done loc rest).2 ≠ none) := by
  intro n
  induction n generalizing rest with
  | zero =>
    intro hn done loc inv
    obtain rfl := List.length_eq_zero_iff.1 hn
    unfold updLoop
    refine ⟨inv, by simp [prodVal], by simp, ?_⟩
    rintro (⟨q, hq, _⟩ | hl)
    · simp at hq
    · exact hl
  | succ n ih =>
    intro hn done loc inv
    cases rest with
    | nil => simp at hn
    | cons p ps =>
      have hps : ps.length = n := by simpa using hn
      have hpp := inv.restPow p (by simp)
      rw [updLoop.eq_def]
      simp only
      split_ifs with h1 h2
      · -- already merged
        have hp1 : p.power = -1 := by rcases hpp with h | h <;> omega
        have inv' : Inv (done ++ [p]) loc ps := by
          refine ⟨fun q hq => inv.restPow q (by simp [hq]), ?_, ?_, ?_, ?_, ?_⟩
          · intro q hq
            rcases List.mem_append.1 hq with hq | hq
            · exact inv.donePow q hq
            · simp at hq; subst hq; exact Or.inl hp1
          · rw [List.pairwise_append]
            refine ⟨inv.distinct, by simp, ?_⟩
            intro a _ b hb _ hb1
            simp at hb; subst hb; omega
          · intro q hq h1 h2 r hr
            rcases List.mem_append.1 hq with hq | hq
            · exact inv.fresh q hq h1 h2 r (by simp [hr])
            · simp at hq; subst hq; omega
          · intro hl q hq
            rcases List.mem_append.1 hq with hq | hq
            · exact inv.locNone hl q hq
            · simp at hq; subst hq; intro h; omega
          · intro k hk
            obtain ⟨A, z, B, e, r1, r2, r3, r4⟩ := inv.locSome k hk
            refine ⟨A, z, B ++ [p], by rw [e]; simp, r1, r2, r3, ?_⟩
            intro q hq
            rw [← List.append_assoc] at hq
            rcases List.mem_append.1 hq with hq | hq
            · exact r4 q hq
            · simp at hq; subst hq; intro h; omega
        obtain ⟨a, b, c, d⟩ := ih ps hps _ _ inv'
        refine ⟨a, ?_, ?_, ?_⟩
        · rw [b, prodVal_append, prodVal_cons, prodVal_cons, mul_assoc]; simp [prodVal]
        · rw [c]; simp; omega
        · rintro (⟨q, hq, hq0, hqc⟩ | hl)
          · rcases List.mem_cons.1 hq with rfl | hq
            · omega
            · exact d (Or.inl ⟨q, hq, hq0, hqc⟩)
          · exact d (Or.inr hl)
      · -- a factor with constant 0
        have hp0 : p.power = 0 := by rcases hpp with h | h <;> omega
        cases hloc : loc with
        | none =>
          simp only
          have inv' : Inv (done ++ [{ p with power := 1 }]) (some done.length) ps := by
            refine ⟨fun q hq => inv.restPow q (by simp [hq]), ?_, ?_, ?_, ?_, ?_⟩
            · intro q hq
              rcases List.mem_append.1 hq with hq | hq
              · exact inv.donePow q hq
              · simp at hq; subst hq; exact Or.inr (le_refl _)
            · rw [List.pairwise_append]
              refine ⟨inv.distinct, by simp, ?_⟩
              intro a _ b hb _ _ ha0
              simp at hb; subst hb
              intro hh; exact ha0 (by rw [hh.1]; exact h2)
            · intro q hq h1 h2' r hr
              rcases List.mem_append.1 hq with hq | hq
              · exact inv.fresh q hq h1 h2' r (by simp [hr])
              · simp at hq; subst hq; exact absurd h2 h2'
            · intro hl; simp at hl
            · intro k hk
              refine ⟨done, { p with power := 1 }, [], rfl, by simpa using hk.symm, h2, le_refl _, ?_⟩
              intro q hq
              exact inv.locNone hloc q (by simpa using hq)
          obtain ⟨a, b, c, d⟩ := ih ps hps _ _ inv'
          refine ⟨a, ?_, ?_, ?_⟩
          · rw [b, prodVal_append, prodVal_cons, prodVal_cons, mul_assoc]
            congr 2
            have e1 : val g h x p = g p.constant p.epsilon := by unfold val; simp [hp0]
            have e2 : val g h x { p with power := 1 } = h p.epsilon * x := by unfold val; simp [h2]
            rw [e1, e2, h2, hg]; simp [prodVal]
          · rw [c]; simp; omega
          · intro _; exact d (Or.inr (by simp))
        | some k =>
          simp only
          obtain ⟨A, z, B, e, r1, r2, r3, r4⟩ := inv.locSome k hloc
          subst r1
          rw [e, modify_mid]
          have hz' : val g h x { z with epsilon := z.epsilon * p.epsilon, power := z.power + 1 } = val g h x z * (h p.epsilon * x) := by
            unfold val
            simp only
            rw [if_neg (by omega), if_neg (by omega), if_pos r2, if_neg (by omega), if_neg (by omega), if_pos r2, hm,
              show (z.power + 1).toNat = z.power.toNat + 1 by omega, pow_succ]
            simp only [mul_assoc, mul_left_comm]
          have inv' : Inv (A ++ { z with epsilon := z.epsilon * p.epsilon, power := z.power + 1 } :: B ++ [{ p with power := -1 }])
              (some A.length) ps := by
            refine ⟨fun q hq => inv.restPow q (by simp [hq]), ?_, ?_, ?_, ?_, ?_⟩
            · intro q hq
              simp only [List.mem_append, List.mem_cons, List.not_mem_nil, or_false] at hq
              rcases hq with (hq | rfl | hq) | rfl
              · exact inv.donePow q (by rw [e]; simp [hq])
              · right; simp only; omega
              · exact inv.donePow q (by rw [e]; simp [hq])
              · exact Or.inl rfl
            · have hd := inv.distinct
              rw [e, List.pairwise_append, List.pairwise_cons] at hd
              obtain ⟨d1, ⟨d2, d3⟩, d4⟩ := hd
              rw [List.pairwise_append, List.pairwise_append, List.pairwise_cons]
              refine ⟨⟨d1, ⟨fun b hb _ _ h0 => absurd r2 h0, d3⟩, ?_⟩, by simp, ?_⟩
              · intro a ha b hb
                rcases List.mem_cons.1 hb with rfl | hb
                · intro _ _ h0 hh; exact h0 (by rw [hh.1]; exact r2)
                · exact d4 a ha b (by simp [hb])
              · intro a _ b hb _ hb1
                simp at hb; subst hb; simp at hb1
            · intro q hq hq1 hq2 r hr
              simp only [List.mem_append, List.mem_cons, List.not_mem_nil, or_false] at hq
              rcases hq with (hq | rfl | hq) | rfl
              · exact inv.fresh q (by rw [e]; simp [hq]) hq1 hq2 r (by simp [hr])
              · exact absurd r2 hq2
              · exact inv.fresh q (by rw [e]; simp [hq]) hq1 hq2 r (by simp [hr])
              · simp at hq1
            · intro hl; simp at hl
            · intro k hk
              refine ⟨A, { z with epsilon := z.epsilon * p.epsilon, power := z.power + 1 }, B ++ [{ p with power := -1 }], by simp only [List.append_assoc, List.cons_append], by simpa using hk.symm, r2, ?_, ?_⟩
              · simp only; omega
              · intro q hq
                simp only [List.mem_append, List.mem_cons, List.not_mem_nil, or_false] at hq
                rcases hq with hq | hq | rfl
                · exact r4 q (by simp [hq])
                · exact r4 q (by simp [hq])
                · intro h; simp at h
          obtain ⟨a, b, c, d⟩ := ih ps hps _ _ inv'
          refine ⟨a, ?_, ?_, ?_⟩
          · rw [b, prodVal_append, prodVal_append, prodVal_append, prodVal_cons, prodVal_cons, prodVal_cons, prodVal_cons, hz']
            have e1 : val g h x p = h p.epsilon * x := by unfold val; simp [hp0, h2, hg]
            have e2 : val g h x { p with power := -1 } = 1 := by unfold val; simp
            rw [e1, e2]
            simp only [prodVal, List.map_nil, List.prod_nil, mul_one]
            simp only [mul_assoc, mul_left_comm, mul_comm]
          · rw [c]; simp; omega
          · intro _; exact d (Or.inr (by simp))
      · -- a factor with nonzero constant
        have hp0 : p.power = 0 := by rcases hpp with h | h <;> omega
        obtain ⟨j, hj1, hj2⟩ := markLoop_prod g h x p.constant p.epsilon ps 1
        push_cast at hj1 hj2
        have hmem := markLoop_mem p.constant p.epsilon ps 1 (fun q hq => inv.restPow q (by simp [hq]))
        have hlen := markLoop_length p.constant p.epsilon ps 1
        have hkeep := fun q hq hqc => markLoop_keep p.constant p.epsilon h2 q hqc ps 1 hq
        generalize markLoop p.constant p.epsilon ps 1 = ml at hj1 hj2 hmem hlen hkeep ⊢
        have inv' : Inv (done ++ [{ p with power := ml.2 }]) loc ml.1 := by
          refine ⟨fun q hq => (hmem q hq).1, ?_, ?_, ?_, ?_, ?_⟩
          · intro q hq
            rcases List.mem_append.1 hq with hq | hq
            · exact inv.donePow q hq
            · simp at hq; subst hq; right; simp only; omega
          · rw [List.pairwise_append]
            refine ⟨inv.distinct, by simp, ?_⟩
            intro a ha b hb ha1 _ ha0 hh
            simp at hb; subst hb
            exact inv.fresh a ha ha1 ha0 p (by simp) hp0 ⟨hh.1.symm, hh.2.symm⟩
          · intro q hq hq1 hq2 r hr hr0
            have hrm := (hmem r hr).2 hr0
            rcases List.mem_append.1 hq with hq | hq
            · exact inv.fresh q hq hq1 hq2 r (by simp [hrm.1]) hr0
            · simp at hq; subst hq; exact hrm.2
          · intro hl q hq
            rcases List.mem_append.1 hq with hq | hq
            · exact inv.locNone hl q hq
            · simp at hq; subst hq; intro _; exact h2
          · intro k hk
            obtain ⟨A, z, B, e, r1, r2, r3, r4⟩ := inv.locSome k hk
            refine ⟨A, z, B ++ [{ p with power := ml.2 }], by rw [e]; simp, r1, r2, r3, ?_⟩
            intro q hq
            rw [← List.append_assoc] at hq
            rcases List.mem_append.1 hq with hq | hq
            · exact r4 q hq
            · simp at hq; subst hq; intro _; exact h2
        obtain ⟨a, b, c, d⟩ := ih ml.1 (by omega) _ _ inv'
        refine ⟨a, ?_, ?_, ?_⟩
        · rw [b, prodVal_append, prodVal_cons, prodVal_cons, hj2]
          have e1 : val g h x p = g p.constant p.epsilon := by unfold val; simp [hp0]
          have e2 : val g h x { p with power := ml.2 } = g p.constant p.epsilon ^ (1 + j) := by
            unfold val
            simp only
            rw [if_neg (by omega), if_neg (by omega), if_neg h2]
            congr 1; omega
          rw [e1, e2, pow_add, pow_one]
          simp only [prodVal, List.map_nil, List.prod_nil, mul_one, mul_assoc]
        · rw [c, hlen]; simp; omega
        · rintro (⟨q, hq, hq0, hqc⟩ | hl)
          · rcases List.mem_cons.1 hq with rfl | hq
            · exact absurd hqc h2
            · apply d
              left
              exact ⟨q, hkeep q hq hqc, hq0, hqc⟩
          · exact d (Or.inr hl)

end generic

/-! ### C39 -/

open Polynomial

/-- meaning of an entry of the table as a polynomial in `ε`: a negative power is a deleted entry, power 0 an unprocessed
factor, an entry with constant 0 stands for `epsilon · ε^power` (comment in Perturbation.cpp:462-466), any other entry for
`(constant + epsilon · ε)^power`. -/
noncomputable def factor (q : LP) : ℚ[X] :=
  if q.power < 0 then 1
  else if q.power = 0 then C (q.constant : ℚ) + C (q.epsilon : ℚ) * X
  else if q.constant = 0 then C (q.epsilon : ℚ) * X ^ q.power.toNat
  else (C (q.constant : ℚ) + C (q.epsilon : ℚ) * X) ^ q.power.toNat

/-- number of linear factors an entry stands for -/
def mult (q : LP) : Nat := if q.power < 0 then 0 else if q.power = 0 then 1 else q.power.toNat

/-- C39: for every table of unprocessed factors with at least one factor without constant term, the table after merging
has the same length and denotes the same product; its first entry is the pole (constant 0, positive power), every other
entry is deleted or has a nonzero constant and positive power, the remaining entries are pairwise different, and the
powers add up to the number of factors. -/
theorem c39_updatePowers (xs : List LP) (h0 : ∀ q ∈ xs, q.power = 0) (hz : ∃ q ∈ xs, q.constant = 0) :
    ∃ p0 rest, updatePowers xs = some (p0 :: rest) ∧ (p0 :: rest).length = xs.length ∧
      ((p0 :: rest).map factor).prod = (xs.map fun q => C (q.constant : ℚ) + C (q.epsilon : ℚ) * X).prod ∧
      p0.constant = 0 ∧ 1 ≤ p0.power ∧
      (∀ q ∈ rest, q.power = -1 ∨ (1 ≤ q.power ∧ q.constant ≠ 0)) ∧
      (rest.filter fun q => 1 ≤ q.power).Pairwise (fun a b => (a.constant, a.epsilon) ≠ (b.constant, b.epsilon)) ∧
      ((p0 :: rest).map mult).sum = xs.length := by
  have inv0 : Inv [] none xs := ⟨fun q hq => Or.inl (h0 q hq), by simp, by simp, by simp, by simp, by simp⟩
  have hP := updLoop_spec (fun c e => C (c : ℚ) + C (e : ℚ) * X) (fun e => C (e : ℚ)) (X : ℚ[X])
    (by intro e; simp) (by intro a b; simp) xs _ rfl [] none inv0
  have hW := updLoop_spec (fun _ _ => Multiplicative.ofAdd 1) (fun _ => (1 : Multiplicative ℕ)) (Multiplicative.ofAdd 1)
    (by simp) (by simp) xs _ rfl [] none inv0
  unfold updatePowers
  obtain ⟨⟨_, donePow, distinct, _, _, locSome⟩, hprod, hlen, hloc⟩ := hP
  obtain ⟨_, hwt, _, _⟩ := hW
  obtain ⟨q0, hq0, hq0c⟩ := hz
  have hl := hloc (Or.inl ⟨q0, hq0, h0 q0 hq0, hq0c⟩)
  generalize updLoop [] none xs = r at *
  obtain ⟨ys, loc⟩ := r
  simp only at *
  cases loc with
  | none => exact absurd rfl hl
  | some k =>
    obtain ⟨A, z, B, e, r1, r2, r3, r4⟩ := locSome k rfl
    subst e r1
    have hres : ∃ rest, (if A.length > 0 then swap0 A.length (A ++ z :: B) else A ++ z :: B) = z :: rest ∧ rest.Perm (A ++ B) := by
      cases A with
      | nil => exact ⟨B, by simp, List.Perm.refl _⟩
      | cons a A =>
        refine ⟨A ++ a :: B, ?_, ?_⟩
        · rw [if_pos (by simp)]
          unfold swap0
          have e2 : (a :: A ++ z :: B)[(a :: A).length]? = some z := by simp
          rw [e2]
          simp only [List.cons_append, List.getElem?_cons_zero, List.set_cons_zero, List.length_cons, List.set_cons_succ]
          congr 1
          clear * -
          induction A with
          | nil => simp
          | cons b A ih => simp [ih]
        · exact List.perm_middle
    obtain ⟨rest, hrest, hperm⟩ := hres
    have hperm2 : (z :: rest).Perm (A ++ z :: B) := (hperm.cons z).trans List.perm_middle.symm
    refine ⟨z, rest, by simp only [hrest], ?_, ?_, r2, r3, ?_, ?_, ?_⟩
    · rw [hperm2.length_eq, hlen]; simp
    · rw [(hperm2.map factor).prod_eq]
      have e1 : (factor : LP → ℚ[X]) = val (fun c e => C (c : ℚ) + C (e : ℚ) * X) (fun e => C (e : ℚ)) (X : ℚ[X]) := rfl
      rw [e1]
      have : prodVal (fun c e => C (c : ℚ) + C (e : ℚ) * X) (fun e => C (e : ℚ)) (X : ℚ[X]) xs
          = (xs.map fun q => C (q.constant : ℚ) + C (q.epsilon : ℚ) * X).prod := by
        unfold prodVal
        congr 1
        apply List.map_congr_left
        intro q hq
        unfold val
        rw [if_neg (by rw [h0 q hq]; omega), if_pos (h0 q hq)]
      rw [← this]
      unfold prodVal at hprod ⊢
      rw [hprod]; simp
    · intro q hq
      have hq' : q ∈ A ++ B := hperm.mem_iff.1 hq
      rcases donePow q (by simp only [List.mem_append, List.mem_cons] at hq' ⊢; tauto) with h | h
      · exact Or.inl h
      · exact Or.inr ⟨h, r4 q hq' h⟩
    · have hsub : (A ++ B).Pairwise Diff := distinct.sublist (by simp)
      rw [((hperm.filter _).pairwise_iff (fun {a b} (h : _ ≠ _) => h.symm))]
      rw [List.pairwise_filter]
      refine hsub.imp_of_mem ?_
      intro a b ha _ hd ha1 hb1
      simp only [decide_eq_true_eq] at ha1 hb1
      have := hd ha1 hb1 (r4 a ha ha1)
      intro heq
      exact this ⟨congrArg Prod.fst heq, congrArg Prod.snd heq⟩
    · rw [(hperm2.map mult).sum_eq]
      have hv : ∀ q : LP, Multiplicative.toAdd (val (fun _ _ => Multiplicative.ofAdd 1) (fun _ => (1 : Multiplicative ℕ)) (Multiplicative.ofAdd 1) q) = mult q := by
        intro q
        unfold val mult
        split_ifs <;> simp
      have hp : ∀ l : List LP, Multiplicative.toAdd (prodVal (fun _ _ => Multiplicative.ofAdd 1) (fun _ => (1 : Multiplicative ℕ)) (Multiplicative.ofAdd 1) l) = (l.map mult).sum := by
        intro l
        induction l with
        | nil => rfl
        | cons q l ih => rw [prodVal_cons, toAdd_mul, ih, hv]; simp
      rw [← hp, hwt, toAdd_mul, hp, hp]
      have : ∀ l : List LP, (∀ q ∈ l, q.power = 0) → (l.map mult).sum = l.length := by
        intro l hl
        induction l with
        | nil => rfl
        | cons q l ih =>
          rw [List.map_cons, List.sum_cons, ih (fun q hq => hl q (by simp [hq]))]
          unfold mult
          rw [if_neg (by rw [hl q (by simp)]; omega), if_pos (hl q (by simp))]
          simp; omega
      rw [this xs h0]; simp

/-- without a factor whose constant term vanishes the assertion fails -/
theorem c39_assertion (xs : List LP) (hz : ∀ q ∈ xs, q.constant ≠ 0) : updatePowers xs = none := by
  have key : ∀ (n : Nat) (rest done : List LP), rest.length = n → (∀ q ∈ rest, q.constant ≠ 0) → (updLoop done none rest).2 = none := by
    intro n
    induction n with
    | zero =>
      intro rest done hn _
      obtain rfl := List.length_eq_zero_iff.1 hn
      unfold updLoop; rfl
    | succ n ih =>
      intro rest done hn hr
      cases rest with
      | nil => simp at hn
      | cons p ps =>
        rw [updLoop.eq_def]
        simp only
        rw [if_neg (hr p (by simp))]
        split_ifs
        · exact ih ps _ (by simpa using hn) (fun q hq => hr q (by simp [hq]))
        · refine ih _ _ (by rw [markLoop_length]; simpa using hn) ?_
          have : ∀ (l : List LP) (k : Int), (∀ q ∈ l, q.constant ≠ 0) → ∀ q ∈ (markLoop p.constant p.epsilon l k).1, q.constant ≠ 0 := by
            intro l
            induction l with
            | nil => intro k _ q hq; simp [markLoop] at hq
            | cons y ys ihy =>
              intro k hl q hq
              unfold markLoop at hq
              split_ifs at hq with hc
              · rcases List.mem_cons.1 hq with rfl | hq
                · exact hl y (by simp)
                · exact ihy _ (fun q hq => hl q (by simp [hq])) q hq
              · rcases List.mem_cons.1 hq with rfl | hq
                · exact hl _ (by simp)
                · exact ihy _ (fun q hq => hl q (by simp [hq])) q hq
          exact this ps 1 (fun q hq => hr q (by simp [hq]))
  unfold updatePowers
  have := key _ xs [] rfl hz
  split
  · rfl
  · rename_i h; rw [h] at this; simp at this

/-- the example of the comment Perturbation.cpp:455-458 -/
example : updatePowers [⟨5, 7, 0⟩, ⟨2, 3, 0⟩, ⟨5, 7, 0⟩, ⟨0, 2, 0⟩, ⟨0, 3, 0⟩] =
    some [⟨0, 6, 2⟩, ⟨2, 3, 1⟩, ⟨5, 7, -1⟩, ⟨5, 7, 2⟩, ⟨0, 3, -1⟩] := by decide +kernel

end Latte.Lawrence
