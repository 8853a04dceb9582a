import Mathlib.RingTheory.PowerSeries.Inverse
import Mathlib.RingTheory.PowerSeries.WellKnown
import Mathlib.Tactic.LinearCombination
import Mathlib.Tactic.FieldSimp
import Mathlib.Tactic.Ring

/-! Sum of residues of `z^n / ∏ (z - x_i)` and complete homogeneous symmetric polynomials. -/

namespace Latte.Residue

open PowerSeries

/-- complete homogeneous symmetric polynomial `h_m(x_0, ..., x_d)` -/
def hsum : Nat → List ℚ → ℚ
  | 0, _ => 1
  | _ + 1, [] => 0
  | m + 1, x :: xs => x * hsum m (x :: xs) + hsum (m + 1) xs
termination_by m xs => m + xs.length

/-- its generating function -/
noncomputable def hser (xs : List ℚ) : ℚ⟦X⟧ := PowerSeries.mk fun m => hsum m xs

theorem hser_cons (x : ℚ) (xs : List ℚ) : (1 - C x * X) * hser (x :: xs) = hser xs := by
  ext m
  cases m with
  | zero => simp [hser, hsum]
  | succ m =>
    rw [sub_mul, one_mul, map_sub, mul_assoc, coeff_C_mul, coeff_succ_X_mul]
    simp only [hser, coeff_mk]
    rw [hsum]; ring

theorem hser_mul (xs : List ℚ) : (xs.map fun x => 1 - C x * X).prod * hser xs = 1 := by
  induction xs with
  | nil =>
    ext m
    cases m <;> simp [hser, hsum, coeff_one]
  | cons x xs ih =>
    rw [List.map_cons, List.prod_cons, mul_comm (1 - C x * X), mul_assoc, hser_cons, ih]

theorem hsum_perm {xs ys : List ℚ} (h : xs.Perm ys) (m : Nat) : hsum m xs = hsum m ys := by
  have h1 := hser_mul xs
  have h2 := hser_mul ys
  have hp : (xs.map fun x => 1 - C x * X).prod = (ys.map fun x => (1 : ℚ⟦X⟧) - C x * X).prod := (h.map _).prod_eq
  rw [hp] at h1
  have : hser xs = hser ys := by
    have h3 : hser xs * ((ys.map fun x => (1 : ℚ⟦X⟧) - C x * X).prod * hser ys) = hser ys := by
      rw [← mul_assoc, mul_comm (hser xs), h1, one_mul]
    rw [h2, mul_one] at h3
    exact h3
  have := congrArg (coeff m) this
  simpa [hser] using this

theorem hsum_erase {xs : List ℚ} {a : ℚ} (ha : a ∈ xs) (m : Nat) :
    hsum (m + 1) xs = a * hsum m xs + hsum (m + 1) (xs.erase a) := by
  have h := List.perm_cons_erase ha
  rw [hsum_perm h (m + 1), hsum_perm h m, hsum]

theorem hsum_replicate (y : ℚ) (m : Nat) : ∀ d : Nat, hsum m (List.replicate (d + 1) y) = ((m + d).choose d : ℚ) * y ^ m := by
  induction m with
  | zero => intro d; simp [hsum]
  | succ m ih =>
    intro d
    induction d with
    | zero =>
      have := ih 0
      simp only [List.replicate_succ, List.replicate_zero] at this ⊢
      rw [hsum, this, hsum]; simp; ring
    | succ d ihd =>
      have h1 := ih (d + 1)
      rw [List.replicate_succ (n := d + 1)] at h1 ⊢
      rw [hsum, h1, ihd]
      have e : (m + 1 + (d + 1)).choose (d + 1) = (m + (d + 1)).choose (d + 1) + (m + 1 + d).choose d := by
        rw [show m + 1 + (d + 1) = (m + 1 + d) + 1 by omega, Nat.choose_succ_succ', show m + (d + 1) = m + 1 + d by omega]; ring
      rw [e]; push_cast; ring

/-! ### residues -/

/-- `∏_{x ≠ y} (z + (y - x))`, the part of the denominator that does not vanish at the pole `y` -/
noncomputable def others (xs : List ℚ) (y : ℚ) : ℚ⟦X⟧ := ((xs.filter fun x => x ≠ y).map fun x => X + C (y - x)).prod

/-- residue at `y` of `z^n / ∏ (z - x_i)`: coefficient of `z^(μ-1)` in `(z+y)^n / ∏_{x ≠ y}(z + y - x)` -/
noncomputable def resAt (xs : List ℚ) (n : Nat) (y : ℚ) : ℚ :=
  coeff (xs.count y - 1) ((X + C y) ^ n * (others xs y)⁻¹)

/-- sum of the residues at the distinct poles -/
noncomputable def resSum (xs : List ℚ) (n : Nat) : ℚ := ∑ y ∈ xs.toFinset, resAt xs n y

theorem others_const (xs : List ℚ) (y : ℚ) : constantCoeff (others xs y) ≠ 0 := by
  unfold others
  induction xs with
  | nil => simp
  | cons x xs ih =>
    rw [List.filter_cons]
    split_ifs with h
    · rw [List.map_cons, List.prod_cons, map_mul]
      have hx : x ≠ y := by simpa using h
      simp only [map_add, constantCoeff_X, constantCoeff_C, zero_add]
      exact mul_ne_zero (sub_ne_zero.2 hx.symm) ih
    · exact ih

theorem others_perm {xs ys : List ℚ} (h : xs.Perm ys) (y : ℚ) : others xs y = others ys y :=
  ((h.filter _).map _).prod_eq

theorem others_cons_ne {a y : ℚ} (h : a ≠ y) (xs : List ℚ) : others (a :: xs) y = (X + C (y - a)) * others xs y := by
  unfold others
  rw [List.filter_cons, if_pos (by simpa using h), List.map_cons, List.prod_cons]

theorem others_cons_self (y : ℚ) (xs : List ℚ) : others (y :: xs) y = others xs y := by
  unfold others
  rw [List.filter_cons, if_neg (by simp)]

theorem resSum_cons (a : ℚ) (ys : List ℚ) (n : Nat) :
    resSum (a :: ys) (n + 1) - a * resSum (a :: ys) n = resSum ys n := by
  unfold resSum
  rw [Finset.mul_sum, ← Finset.sum_sub_distrib]
  have key : ∀ y, resAt (a :: ys) (n + 1) y - a * resAt (a :: ys) n y =
      coeff ((a :: ys).count y - 1) ((X + C (y - a)) * (X + C y) ^ n * (others (a :: ys) y)⁻¹) := by
    intro y
    unfold resAt
    rw [← coeff_C_mul, ← map_sub]
    congr 1
    rw [map_sub]
    ring
  have hne : ∀ y, y ≠ a → resAt (a :: ys) (n + 1) y - a * resAt (a :: ys) n y = resAt ys n y := by
    intro y hy
    rw [key, List.count_cons_of_ne (Ne.symm hy), others_cons_ne (Ne.symm hy)]
    unfold resAt
    congr 1
    have hc : constantCoeff (X + C (y - a) : ℚ⟦X⟧) ≠ 0 := by
      simpa using sub_ne_zero.2 hy
    rw [PowerSeries.mul_inv_rev]
    calc (X + C (y - a)) * (X + C y) ^ n * ((others ys y)⁻¹ * (X + C (y - a))⁻¹)
        = (X + C y) ^ n * (others ys y)⁻¹ * ((X + C (y - a)) * (X + C (y - a))⁻¹) := by ring
      _ = _ := by rw [PowerSeries.mul_inv_cancel _ hc, mul_one]
  have hself : resAt (a :: ys) (n + 1) a - a * resAt (a :: ys) n a = if a ∈ ys then resAt ys n a else 0 := by
    rw [key, List.count_cons_self, others_cons_self, sub_self, map_zero, add_zero, Nat.add_sub_cancel]
    split_ifs with h
    · have hpos := List.count_pos_iff.2 h
      obtain ⟨c, hc⟩ : ∃ c, ys.count a = c + 1 := ⟨ys.count a - 1, by omega⟩
      unfold resAt
      rw [hc, mul_assoc, coeff_succ_X_mul, Nat.add_sub_cancel]
    · rw [List.count_eq_zero_of_not_mem h, mul_assoc, coeff_zero_X_mul]
  by_cases h : a ∈ ys
  · have e : (a :: ys).toFinset = ys.toFinset := by
      ext z; simp only [List.toFinset_cons, Finset.mem_insert, List.mem_toFinset]
      constructor
      · rintro (rfl | h')
        · exact h
        · exact h'
      · exact Or.inr
    rw [e]
    apply Finset.sum_congr rfl
    intro y _
    by_cases hy : y = a
    · subst hy; rw [hself, if_pos h]
    · exact hne y hy
  · rw [List.toFinset_cons, Finset.sum_insert (by simpa using h), hself, if_neg h, zero_add]
    apply Finset.sum_congr rfl
    intro y hy
    exact hne y (fun e => h (by rw [← e]; simpa using hy))

theorem resSum_perm {xs ys : List ℚ} (h : xs.Perm ys) (n : Nat) : resSum xs n = resSum ys n := by
  unfold resSum
  rw [List.toFinset_eq_of_perm _ _ h]
  apply Finset.sum_congr rfl
  intro y _
  unfold resAt
  rw [h.count_eq, others_perm h]

theorem resSum_erase {xs : List ℚ} {a : ℚ} (ha : a ∈ xs) (n : Nat) :
    resSum xs (n + 1) = a * resSum xs n + resSum (xs.erase a) n := by
  have h := List.perm_cons_erase ha
  have := resSum_cons a (xs.erase a) n
  rw [← resSum_perm h, ← resSum_perm h] at this
  linarith

theorem resSum_replicate (y : ℚ) (d n : Nat) : resSum (List.replicate (d + 1) y) n = (n.choose d : ℚ) * y ^ (n - d) := by
  unfold resSum
  have e : (List.replicate (d + 1) y).toFinset = {y} := by
    rw [List.toFinset_replicate_of_ne_zero (by omega)]
  rw [e, Finset.sum_singleton]
  unfold resAt
  have e2 : others (List.replicate (d + 1) y) y = 1 := by
    unfold others
    rw [List.filter_replicate]
    simp
  rw [e2, List.count_replicate_self, Nat.add_sub_cancel, show (1 : ℚ⟦X⟧)⁻¹ = 1 from (PowerSeries.inv_eq_iff_mul_eq_one (by simp)).2 (mul_one 1), mul_one]
  have := Polynomial.coeff_X_add_C_pow y n d
  rw [← Polynomial.coeff_coe] at this
  simp only [Polynomial.coe_pow, Polynomial.coe_add, Polynomial.coe_X, Polynomial.coe_C] at this
  rw [this]; ring

/-- the sum of the residues of `z^(m+d) / ∏_{i ≤ d} (z - x_i)` is `h_m(x_0, ..., x_d)` -/
theorem resSum_eq_hsum : ∀ (d : Nat) (xs : List ℚ) (m : Nat), xs.length = d + 1 → resSum xs (m + d) = hsum m xs := by
  intro d
  induction d with
  | zero =>
    intro xs m hl
    obtain ⟨y, rfl⟩ := List.length_eq_one_iff.1 hl
    have h1 := resSum_replicate y 0 (m + 0)
    have h2 := hsum_replicate y m 0
    simp only [List.replicate_succ, List.replicate_zero] at h1 h2
    rw [h1, h2]; simp
  | succ d ih =>
    intro xs m hl
    by_cases hall : ∃ a ∈ xs, ∃ b ∈ xs, a ≠ b
    · obtain ⟨a, ha, b, hb, hab⟩ := hall
      have la : (xs.erase a).length = d + 1 := by rw [List.length_erase_of_mem ha]; omega
      have lb : (xs.erase b).length = d + 1 := by rw [List.length_erase_of_mem hb]; omega
      have h1 := resSum_erase ha (m + (d + 1))
      have h2 := resSum_erase hb (m + (d + 1))
      have e : m + (d + 1) = (m + 1) + d := by omega
      have h3 := ih (xs.erase a) (m + 1) la
      have h4 := ih (xs.erase b) (m + 1) lb
      rw [← e] at h3 h4
      have h5 := hsum_erase ha m
      have h6 := hsum_erase hb m
      have : (a - b) * resSum xs (m + (d + 1)) = (a - b) * hsum m xs := by
        linear_combination h2 - h1 - h3 + h4 + h5 - h6
      exact mul_left_cancel₀ (sub_ne_zero.2 hab) this
    · have hall' : ∀ a ∈ xs, ∀ b ∈ xs, a = b := by
        intro a ha b hb
        by_contra hab
        exact hall ⟨a, ha, b, hb, hab⟩
      obtain ⟨y, ys, rfl⟩ : ∃ y ys, xs = y :: ys := by
        cases xs with
        | nil => simp at hl
        | cons y ys => exact ⟨y, ys, rfl⟩
      have e : y :: ys = List.replicate (d + 1 + 1) y := by
        rw [List.eq_replicate_iff]
        exact ⟨hl, fun b hb => hall' b hb y (by simp)⟩
      rw [e, resSum_replicate, hsum_replicate, Nat.add_sub_cancel]

end Latte.Residue
