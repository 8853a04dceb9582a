import Verif.Trie.DecModel
import Verif.Trie.Props
import Mathlib.Algebra.Group.ForwardDiff
import Mathlib.Algebra.MvPolynomial.Basic
import Mathlib.Algebra.Algebra.Rat
import Mathlib.Data.Nat.Choose.Sum
import Mathlib.Tactic.FieldSimp
import Mathlib.Tactic.LinearCombination

/-!
# C24: a monomial is rewritten exactly as powers of linear forms
-/

namespace Verif.Trie

open Finset

/-! ## Finite differences -/

/-- The signed binomial coefficient. -/
def wt (M k : ℕ) : ℤ := (-1) ^ (M - k) * (M.choose k : ℤ)

theorem sum_wt_pow {R : Type} [CommRing R] (M j : ℕ) (h : j ≤ M) :
    ∑ k ∈ range (M + 1), (wt M k : R) * (k : R) ^ j = if j = M then (M.factorial : R) else 0 := by
  have e := fwdDiff_iter_eq_sum_shift (1 : R) (fun r : R => r ^ j) M 0
  simp only [zero_add, nsmul_eq_mul, mul_one, zsmul_eq_mul] at e
  have : ∑ k ∈ range (M + 1), (wt M k : R) * (k : R) ^ j =
      ((fwdDiff (1 : R))^[M] (fun r : R => r ^ j)) 0 := by
    rw [e]; rfl
  rw [this]
  by_cases hj : j = M
  · subst hj
    rw [if_pos rfl, fwdDiff_iter_eq_factorial]
    rfl
  · rw [if_neg hj, fwdDiff_iter_pow_eq_zero_of_lt (by omega)]
    rfl

theorem sum_digits {R : Type} [AddCommMonoid R] (f : ℕ → ℕ → R) (a P : ℕ) (ha : 0 < a) :
    ∑ j ∈ range (a * P), f (j % a) (j / a) = ∑ q ∈ range P, ∑ k ∈ range a, f k q := by
  induction P with
  | zero => simp
  | succ P ih =>
    rw [Nat.mul_succ, Finset.sum_range_add, ih, Finset.sum_range_succ]
    congr 1
    apply Finset.sum_congr rfl
    intro k hk
    rw [mem_range] at hk
    rw [Nat.mul_add_mod, Nat.mod_eq_of_lt hk, Nat.mul_add_div ha, Nat.div_eq_of_lt hk, add_zero]

/-- The number of counters. -/
def total (Ms : List ℕ) : ℕ := (Ms.map (· + 1)).prod

theorem total_pos (Ms : List ℕ) : 0 < total Ms := by
  unfold total
  apply List.prod_pos
  intro a ha
  rw [List.mem_map] at ha
  obtain ⟨b, -, rfl⟩ := ha
  omega

/-- The counter number `j` (its first component changes fastest). -/
def digits : List ℕ → ℕ → List ℕ
  | [], _ => []
  | M :: Ms, j => (j % (M + 1)) :: digits Ms (j / (M + 1))

/-- The weight of the counter number `j`. -/
def weight : List ℕ → ℕ → ℤ
  | [], _ => 1
  | M :: Ms, j => wt M (j % (M + 1)) * weight Ms (j / (M + 1))

/-- The linear form with the given coefficients. -/
def dot {R : Type} [CommRing R] : List ℤ → List R → R
  | c :: cs, x :: xs => (c : R) * x + dot cs xs
  | _, _ => 0

/-- The alternating sum. -/
def altSum {R : Type} [CommRing R] (Ms : List ℕ) (xs : List R) (m : ℕ) : R :=
  ∑ j ∈ range (total Ms), (weight Ms j : R) * dot ((digits Ms j).map fun k : ℕ => (k : ℤ)) xs ^ m

theorem altSum_cons {R : Type} [CommRing R] (M : ℕ) (Ms : List ℕ) (x : R) (xs : List R) (m : ℕ) :
    altSum (M :: Ms) (x :: xs) m = ∑ i ∈ range (m + 1), (m.choose i : R) * x ^ i *
      (∑ k ∈ range (M + 1), (wt M k : R) * (k : R) ^ i) * altSum Ms xs (m - i) := by
  unfold altSum
  have h1 : total (M :: Ms) = (M + 1) * total Ms := by simp [total]
  rw [h1]
  have h2 := sum_digits (fun k q => ((wt M k * weight Ms q : ℤ) : R) *
    ((k : R) * x + dot ((digits Ms q).map fun k : ℕ => (k : ℤ)) xs) ^ m) (M + 1) (total Ms)
    (Nat.succ_pos M)
  have h3 : ∑ j ∈ range ((M + 1) * total Ms), (weight (M :: Ms) j : R) *
      dot ((digits (M :: Ms) j).map fun k : ℕ => (k : ℤ)) (x :: xs) ^ m =
      ∑ j ∈ range ((M + 1) * total Ms), ((wt M (j % (M + 1)) * weight Ms (j / (M + 1)) : ℤ) : R) *
        (((j % (M + 1) : ℕ) : R) * x +
          dot ((digits Ms (j / (M + 1))).map fun k : ℕ => (k : ℤ)) xs) ^ m := by
    apply Finset.sum_congr rfl
    intro j _
    simp only [weight, digits, List.map_cons, dot, Int.cast_natCast]
  rw [h3, h2]
  -- binomial theorem
  have h4 : ∀ q k : ℕ, ((wt M k * weight Ms q : ℤ) : R) *
      ((k : R) * x + dot ((digits Ms q).map fun k : ℕ => (k : ℤ)) xs) ^ m =
      ∑ i ∈ range (m + 1), (m.choose i : R) * x ^ i * ((wt M k : R) * (k : R) ^ i) *
        ((weight Ms q : R) * dot ((digits Ms q).map fun k : ℕ => (k : ℤ)) xs ^ (m - i)) := by
    intro q k
    rw [add_pow, Finset.mul_sum]
    apply Finset.sum_congr rfl
    intro i _
    rw [mul_pow]
    push_cast
    ring
  simp only [h4]
  rw [Finset.sum_congr rfl fun q _ => Finset.sum_comm, Finset.sum_comm]
  apply Finset.sum_congr rfl
  intro i _
  rw [Finset.mul_sum]
  apply Finset.sum_congr rfl
  intro q _
  rw [Finset.mul_sum, Finset.sum_mul]

/-- The product of powers. -/
def powProd {R : Type} [CommRing R] : List ℕ → List R → R
  | M :: Ms, x :: xs => x ^ M * powProd Ms xs
  | _, _ => 1

/-- The polarization identity. -/
theorem altSum_eq {R : Type} [CommRing R] : ∀ (Ms : List ℕ) (xs : List R), Ms.length = xs.length →
    (∀ m, m < Ms.sum → altSum Ms xs m = 0) ∧
      altSum Ms xs Ms.sum = (Ms.sum.factorial : R) * powProd Ms xs
  | [], [], _ => by
    refine ⟨fun m h => by simp at h, ?_⟩
    simp [altSum, total, weight, digits, dot, powProd]
  | M :: Ms, x :: xs, h => by
    obtain ⟨ih0, ih1⟩ := altSum_eq Ms xs (by simpa using h)
    have key : ∀ m, m ≤ M + Ms.sum → ∀ i ∈ range (m + 1), i ≠ M →
        (m.choose i : R) * x ^ i * (∑ k ∈ range (M + 1), (wt M k : R) * (k : R) ^ i) *
          altSum Ms xs (m - i) = 0 := by
      intro m hm i hi hne
      rcases lt_or_gt_of_ne hne with hlt | hgt
      · rw [sum_wt_pow M i hlt.le, if_neg hne]; ring
      · rw [mem_range] at hi
        rw [ih0 (m - i) (by omega)]; ring
    refine ⟨fun m hm => ?_, ?_⟩
    · rw [List.sum_cons] at hm
      rw [altSum_cons]
      apply Finset.sum_eq_zero
      intro i hi
      by_cases hne : i = M
      · rw [mem_range] at hi
        rw [ih0 (m - i) (by omega)]; ring
      · exact key m hm.le i hi hne
    · rw [List.sum_cons, altSum_cons, Finset.sum_eq_single M (key _ le_rfl)
        (fun hn => absurd (mem_range.mpr (by omega)) hn)]
      rw [sum_wt_pow M M le_rfl, if_pos rfl, Nat.add_sub_cancel_left, ih1, powProd]
      have hf : ((M + Ms.sum).factorial : R) =
          ((M + Ms.sum).choose M : R) * (M.factorial : R) * (Ms.sum.factorial : R) := by
        have := Nat.choose_mul_factorial_mul_factorial (Nat.le_add_right M Ms.sum)
        rw [Nat.add_sub_cancel_left] at this
        rw [← this]; push_cast; ring
      rw [hf]; ring

/-! ## The counter -/

/-- The arrays at counter number `j`. -/
def cells : List ℕ → ℕ → List Cell
  | [], _ => []
  | M :: Ms, j => ⟨M, (j % (M + 1) : ℕ), (M.choose (j % (M + 1)) : ℕ)⟩ :: cells Ms (j / (M + 1))

theorem cells_zero (Ms : List ℕ) : cells Ms 0 = Ms.map fun M : ℕ => ⟨(M : ℤ), 0, 1⟩ := by
  induction Ms with
  | nil => rfl
  | cons M Ms ih => simp [cells, ih]

theorem bump_cells (Ms : List ℕ) (j : ℕ) (h : j + 1 < total Ms) :
    bump (cells Ms j) = some (cells Ms (j + 1)) := by
  induction Ms generalizing j with
  | nil => simp [total] at h
  | cons M Ms ih =>
    have ht : total (M :: Ms) = (M + 1) * total Ms := by simp [total]
    have hlt : j % (M + 1) < M + 1 := Nat.mod_lt j (by omega)
    have hdm := Nat.div_add_mod j (M + 1)
    unfold cells bump
    by_cases hc : j % (M + 1) = M
    · have hj : j + 1 = (M + 1) * (j / (M + 1) + 1) := by rw [Nat.mul_succ]; omega
      have h1 : (j + 1) % (M + 1) = 0 := by rw [hj, Nat.mul_mod_right]
      have h2 : (j + 1) / (M + 1) = j / (M + 1) + 1 := by
        rw [hj, Nat.mul_div_cancel_left _ (Nat.succ_pos M)]
      simp only
      rw [if_pos (by rw [hc]; omega), h1, h2, ih]
      · simp
      · rw [ht, hj] at h
        exact Nat.lt_of_mul_lt_mul_left h
    · have hk : j % (M + 1) + 1 < M + 1 := by omega
      have hj : j + 1 = (M + 1) * (j / (M + 1)) + (j % (M + 1) + 1) := by omega
      have h1 : (j + 1) % (M + 1) = j % (M + 1) + 1 := by
        rw [hj, Nat.mul_add_mod, Nat.mod_eq_of_lt hk]
      have h2 : (j + 1) / (M + 1) = j / (M + 1) := by
        rw [hj, Nat.mul_add_div (Nat.succ_pos M), Nat.div_eq_of_lt hk, add_zero]
      simp only
      rw [if_neg (by omega), h1, h2]
      congr 2
      have hch := Nat.choose_succ_right_eq M (j % (M + 1))
      have hb : ((M.choose (j % (M + 1)) : ℕ) : ℤ) * ((M : ℤ) - (((j % (M + 1) : ℕ) : ℤ) + 1) + 1) =
          ((M.choose (j % (M + 1) + 1) : ℕ) : ℤ) * (((j % (M + 1) : ℕ) : ℤ) + 1) := by
        have hle : j % (M + 1) ≤ M := by omega
        have := congrArg (Nat.cast : ℕ → ℤ) hch
        push_cast [Nat.cast_sub hle] at this ⊢
        linarith
      rw [hb, Int.mul_ediv_cancel _ (by positivity)]
      push_cast
      rfl

theorem formLoop_cells (coef : ℚ) (D : ℤ) (Ms : List ℕ) (k j : ℕ) (h : j + k < total Ms) :
    formLoop coef D k (cells Ms j) =
      some ((List.range k).map fun i => formOf coef D (cells Ms (j + 1 + i))) := by
  induction k generalizing j with
  | zero => rfl
  | succ k ih =>
    unfold formLoop
    rw [bump_cells Ms j (by omega)]
    simp only
    rw [ih (j + 1) (by omega), List.range_succ_eq_map]
    simp only [Option.map_some, List.map_cons, List.map_map, add_zero]
    congr 2
    apply List.map_congr_left
    intro i _
    simp only [Function.comp]
    congr 2
    omega

/-! ## One linear form -/

theorem cells_counter (Ms : List ℕ) (j : ℕ) :
    (cells Ms j).map Cell.counter = (digits Ms j).map fun k : ℕ => (k : ℤ) := by
  induction Ms generalizing j with
  | nil => rfl
  | cons M Ms ih => simp only [cells, digits, List.map_cons, ih]

theorem cells_nonneg (Ms : List ℕ) (j : ℕ) : ∀ c ∈ cells Ms j, 0 ≤ c.counter := by
  induction Ms generalizing j with
  | nil => simp [cells]
  | cons M Ms ih =>
    intro c hc
    rw [cells, List.mem_cons] at hc
    rcases hc with rfl | hc
    · simp only; positivity
    · exact ih _ c hc

/-- The parity and the product of binomial coefficients give the weight. -/
theorem cells_weight (Ms : List ℕ) (j : ℕ) : ∃ d : ℕ, (∀ a : ℤ,
      (cells Ms j).foldl (fun a c => a - c.counter) (a + (Ms.sum : ℕ)) = a + d) ∧
    ∀ q : ℚ, (cells Ms j).foldl (fun a c => a * (c.binom : ℚ)) q * (-1) ^ d = q * (weight Ms j : ℚ) := by
  induction Ms generalizing j with
  | nil => exact ⟨0, fun a => by simp [cells], fun q => by simp [cells, weight]⟩
  | cons M Ms ih =>
    obtain ⟨d, h1, h2⟩ := ih (j / (M + 1))
    have hle : j % (M + 1) ≤ M := by
      have : j % (M + 1) < M + 1 := Nat.mod_lt j (by omega)
      omega
    refine ⟨d + (M - j % (M + 1)), fun a => ?_, fun q => ?_⟩
    · rw [cells, List.foldl_cons, List.sum_cons]
      have : a + ((M + Ms.sum : ℕ) : ℤ) - ((j % (M + 1) : ℕ) : ℤ) =
          (a + ((M - j % (M + 1) : ℕ) : ℤ)) + (Ms.sum : ℕ) := by
        push_cast [Nat.cast_sub hle]; ring
      simp only
      rw [this, h1]
      push_cast; ring
    · rw [cells, List.foldl_cons, pow_add]
      have := h2 (q * ((M.choose (j % (M + 1)) : ℕ) : ℚ))
      simp only [Int.cast_natCast]
      rw [← mul_assoc, this, weight, wt]
      push_cast; ring

theorem foldl_gcd_dvd (cs : List Cell) (g : ℤ) :
    cs.foldl (fun g c => (Int.gcd g c.counter : ℤ)) g ∣ g ∧
    ∀ c ∈ cs, cs.foldl (fun g c => (Int.gcd g c.counter : ℤ)) g ∣ c.counter := by
  induction cs generalizing g with
  | nil => exact ⟨dvd_rfl, by simp⟩
  | cons c cs ih =>
    rw [List.foldl_cons]
    obtain ⟨h1, h2⟩ := ih (Int.gcd g c.counter : ℤ)
    refine ⟨h1.trans (Int.gcd_dvd_left ..), fun d hd => ?_⟩
    rcases List.mem_cons.mp hd with rfl | hd
    · exact h1.trans (Int.gcd_dvd_right ..)
    · exact h2 d hd

theorem dot_smul {R : Type} [CommRing R] (g : ℤ) (l l' : List ℤ) (xs : List R)
    (h : l = l'.map fun c => g * c) : dot l xs = (g : R) * dot l' xs := by
  subst h
  induction l' generalizing xs with
  | nil => cases xs <;> simp [dot]
  | cons c l' ih =>
    cases xs with
    | nil => simp [dot]
    | cons x xs =>
      simp only [List.map_cons, dot]
      rw [ih]
      push_cast; ring

variable {R : Type} [CommRing R] [Algebra ℚ R]

/-- The value of a term of a `linFormSum` up to the factorial: coefficient times power of the form. -/
def rawVal (xs : List R) (t : Term ℚ) : R :=
  algebraMap ℚ R t.coef * dot t.exps xs ^ t.degree.toNat

theorem formOf_val (coef : ℚ) (Ms : List ℕ) (j : ℕ) (xs : List R) :
    rawVal xs (formOf coef (Ms.sum : ℕ) (cells Ms j)) =
      algebraMap ℚ R coef * ((weight Ms j : R) *
        dot ((digits Ms j).map fun k : ℕ => (k : ℤ)) xs ^ Ms.sum) := by
  obtain ⟨d, hd1, hd2⟩ := cells_weight Ms j
  have hpar : (cells Ms j).foldl (fun a c => a - c.counter) ((Ms.sum : ℕ) : ℤ) = (d : ℤ) := by
    have := hd1 0
    simpa using this
  -- the coefficient before the gcd
  have hco : (if ((d : ℤ)) % 2 = 1 then
      (cells Ms j).foldl (fun a c => a * (c.binom : ℚ)) 1 * coef * -1
      else (cells Ms j).foldl (fun a c => a * (c.binom : ℚ)) 1 * coef) = (weight Ms j : ℚ) * coef := by
    have h := hd2 1
    rw [one_mul] at h
    rcases Nat.even_or_odd d with he | ho
    · rw [if_neg (by obtain ⟨r, rfl⟩ := he; omega), ← h, he.neg_one_pow, mul_one]
    · rw [if_pos (by obtain ⟨r, rfl⟩ := ho; omega), ← h, ho.neg_one_pow]
      ring
  have hw : algebraMap ℚ R ((weight Ms j : ℚ)) = (weight Ms j : R) := by simp
  unfold formOf
  simp only [hpar, hco]
  split_ifs with hg
  · -- form p
    have hg' : (cells Ms j).foldl (fun g c => (Int.gcd g c.counter : ℤ)) 0 = 1 ∨ True := Or.inr trivial
    have hdvd := (foldl_gcd_dvd (cells Ms j) 0).2
    set g := (cells Ms j).foldl (fun g c => (Int.gcd g c.counter : ℤ)) 0 with hgdef
    have hdot : dot ((digits Ms j).map fun k : ℕ => (k : ℤ)) xs =
        (g : R) * dot ((cells Ms j).map fun c => c.counter / g) xs := by
      apply dot_smul
      rw [← cells_counter, List.map_map]
      apply List.map_congr_left
      intro c hc
      simp only [Function.comp]
      rw [Int.mul_ediv_cancel' (hdvd c hc)]
    unfold rawVal
    simp only [Int.toNat_natCast]
    rw [hdot, mul_pow, map_mul, map_mul, map_pow, hw]
    have : algebraMap ℚ R (g : ℚ) = (g : R) := by simp
    rw [this]; ring
  · unfold rawVal
    simp only [Int.toNat_natCast]
    rw [cells_counter, map_mul, hw]; ring

/-! ## The decomposition of a term -/

theorem foldl_count (Ms : List ℕ) (a : ℤ) :
    (Ms.map fun M : ℕ => (M : ℤ)).foldl (fun a e => a * (e + 1)) a = a * (total Ms : ℤ) := by
  induction Ms generalizing a with
  | nil => simp [total]
  | cons M Ms ih =>
    rw [List.map_cons, List.foldl_cons, ih]
    simp only [total, List.map_cons, List.prod_cons]
    push_cast; ring

theorem foldl_degree (Ms : List ℕ) (a : ℤ) :
    (Ms.map fun M : ℕ => (M : ℤ)).foldl (fun a e => a + e) a = a + (Ms.sum : ℕ) := by
  induction Ms generalizing a with
  | nil => simp
  | cons M Ms ih =>
    rw [List.map_cons, List.foldl_cons, ih, List.sum_cons]
    push_cast; ring

theorem total_eq_one (Ms : List ℕ) (h : total Ms = 1) : ∀ M ∈ Ms, M = 0 := by
  induction Ms with
  | nil => simp
  | cons M Ms ih =>
    simp only [total, List.map_cons, List.prod_cons] at h ih
    have h1 := Nat.eq_one_of_mul_eq_one_right h
    have h2 := Nat.eq_one_of_mul_eq_one_left h
    intro a ha
    rcases List.mem_cons.mp ha with rfl | ha
    · omega
    · exact ih h2 a ha

theorem total_gt_one (Ms : List ℕ) (h : total Ms ≠ 1) : 0 < Ms.sum := by
  by_contra hn
  apply h
  have hz : ∀ M ∈ Ms, M = 0 := by
    intro M hM
    have := List.single_le_sum (l := Ms) (fun _ _ => Nat.zero_le _) M hM
    omega
  unfold total
  apply List.prod_eq_one
  intro a ha
  rw [List.mem_map] at ha
  obtain ⟨b, hb, rfl⟩ := ha
  show b + 1 = 1
  rw [hz b hb]

theorem digits_zero (Ms : List ℕ) : digits Ms 0 = Ms.map fun _ => 0 := by
  induction Ms with
  | nil => rfl
  | cons M Ms ih => simp [digits, ih]

omit [Algebra ℚ R] in
theorem dot_zero (Ms : List ℕ) (xs : List R) : dot (Ms.map fun _ => (0 : ℤ)) xs = 0 := by
  induction Ms generalizing xs with
  | nil => cases xs <;> rfl
  | cons M Ms ih =>
    cases xs with
    | nil => rfl
    | cons x xs =>
      rw [List.map_cons, dot, ih]
      simp

omit [Algebra ℚ R] in
theorem powProd_zero (Ms : List ℕ) (xs : List R) (h : ∀ M ∈ Ms, M = 0) : powProd Ms xs = 1 := by
  induction Ms generalizing xs with
  | nil => cases xs <;> rfl
  | cons M Ms ih =>
    cases xs with
    | nil => rfl
    | cons x xs =>
      rw [powProd, h M (by simp), ih xs fun a ha => h a (by simp [ha])]
      ring

/-- The value of a term of a `linFormSum`: coefficient times power of the linear form, divided by the
factorial of the degree. -/
def formVal (xs : List R) (t : Term ℚ) : R :=
  algebraMap ℚ R (t.coef / (t.degree.toNat.factorial : ℚ)) * dot t.exps xs ^ t.degree.toNat

theorem decomposeTerm_val (coef : ℚ) (Ms : List ℕ) (d : ℤ) (xs : List R) (hl : Ms.length = xs.length) :
    ∃ fs, decomposeTerm ⟨coef, Ms.map fun M : ℕ => (M : ℤ), d⟩ = some fs ∧
      (∀ f ∈ fs, f.exps.length = Ms.length ∧ f.degree = (Ms.sum : ℕ)) ∧
      (fs.map (formVal xs)).sum = algebraMap ℚ R coef * powProd Ms xs := by
  unfold decomposeTerm
  simp only [foldl_count, foldl_degree, one_mul, zero_add]
  by_cases h1 : total Ms = 1
  · have hz := total_eq_one Ms h1
    have hs : Ms.sum = 0 := List.sum_eq_zero hz
    rw [if_pos (by rw [h1]; norm_num)]
    refine ⟨_, rfl, ?_, ?_⟩
    · intro f hf
      rw [List.mem_singleton] at hf
      subst hf
      simp [hs]
    · rw [powProd_zero Ms xs hz]
      simp [formVal]
  · have hpos := total_pos Ms
    have hs := total_gt_one Ms h1
    rw [if_neg (by omega), List.map_map]
    have hcells : (Ms.map ((fun e : ℤ => (⟨e, 0, 1⟩ : Cell)) ∘ fun M : ℕ => (M : ℤ))) = cells Ms 0 := by
      rw [cells_zero]; rfl
    have hcount : ((total Ms : ℤ) - 1).toNat = total Ms - 1 := by omega
    rw [hcells, hcount, formLoop_cells coef _ Ms (total Ms - 1) 0 (by omega)]
    refine ⟨_, rfl, ?_, ?_⟩
    · intro f hf
      rw [List.mem_map] at hf
      obtain ⟨i, -, rfl⟩ := hf
      have hlen : ∀ (Ms : List ℕ) j, (cells Ms j).length = Ms.length := by
        intro Ms
        induction Ms with
        | nil => intro j; rfl
        | cons M Ms ih => intro j; simp [cells, ih]
      unfold formOf
      simp only
      split_ifs <;> simp [hlen]
    · have hraw : ∀ i, formVal xs (formOf coef (Ms.sum : ℕ) (cells Ms (0 + 1 + i))) =
          algebraMap ℚ R (1 / (Ms.sum.factorial : ℚ)) *
            (algebraMap ℚ R coef * ((weight Ms (i + 1) : R) *
              dot ((digits Ms (i + 1)).map fun k : ℕ => (k : ℤ)) xs ^ Ms.sum)) := by
        intro i
        have hdeg : (formOf coef (Ms.sum : ℕ) (cells Ms (0 + 1 + i))).degree = (Ms.sum : ℕ) := by
          unfold formOf
          simp only
          split_ifs <;> rfl
        have := formOf_val (R := R) coef Ms (0 + 1 + i) xs
        rw [show 0 + 1 + i = i + 1 by omega] at this ⊢
        rw [← this]
        unfold formVal rawVal
        rw [show 0 + 1 + i = i + 1 by omega] at hdeg
        rw [hdeg, Int.toNat_natCast, div_eq_mul_one_div, map_mul]
        ring
      have hsum : ∀ (f : ℕ → R) (k : ℕ), ((List.range k).map f).sum = ∑ i ∈ range k, f i := by
        intro f k
        induction k with
        | zero => rfl
        | succ k ih => rw [List.range_succ, List.map_append, List.sum_append, ih,
            Finset.sum_range_succ]; simp
      rw [List.map_map, hsum]
      simp only [Function.comp, hraw]
      rw [← Finset.mul_sum, ← Finset.mul_sum]
      have halt : ∑ i ∈ range (total Ms - 1), (weight Ms (i + 1) : R) *
          dot ((digits Ms (i + 1)).map fun k : ℕ => (k : ℤ)) xs ^ Ms.sum = altSum Ms xs Ms.sum := by
        unfold altSum
        obtain ⟨P, hP⟩ : ∃ P, total Ms = P + 1 := ⟨total Ms - 1, by omega⟩
        rw [hP, Nat.add_sub_cancel, Finset.sum_range_succ' _ P, digits_zero, List.map_map]
        have : dot (Ms.map ((fun k : ℕ => (k : ℤ)) ∘ fun _ => 0)) xs = 0 := dot_zero Ms xs
        rw [this, zero_pow (by omega)]
        ring
      rw [halt, (altSum_eq Ms xs hl).2]
      have hf : algebraMap ℚ R (1 / (Ms.sum.factorial : ℚ)) * (Ms.sum.factorial : R) = 1 := by
        rw [← map_natCast (algebraMap ℚ R), ← map_mul, one_div,
          inv_mul_cancel₀ (by exact_mod_cast (Nat.factorial_pos _).ne'), map_one]
      linear_combination (algebraMap ℚ R coef * powProd Ms xs) * hf

end Verif.Trie
