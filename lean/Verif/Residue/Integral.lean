import Verif.Residue.Model
import Verif.Residue.Algebra
import Mathlib.Algebra.BigOperators.Group.List.Basic

/-! C26: integral of powers of linear forms over a simplex. -/

namespace Latte.Residue

open PowerSeries

/-! ### small list lemmas -/

theorem mapM_some {α β : Type} {g : α → Option β} {f : α → β} : ∀ {l : List α}, (∀ x ∈ l, g x = some (f x)) →
    l.mapM g = some (l.map f) := by
  intro l
  induction l with
  | nil => intro _; rfl
  | cons x xs ih =>
    intro h
    rw [List.mapM_cons, h x (by simp), ih fun y hy => h y (by simp [hy])]
    rfl

/-- list of coefficients agreeing with a series up to order `c0` -/
def Agree (c0 : Nat) (p : List Int) (F : ℚ⟦X⟧) : Prop := ∀ n ≤ c0, ((p.getD n 0 : Int) : ℚ) = coeff n F

theorem getD_map_range {α : Type} (f : Nat → α) (z : α) (k n : Nat) (h : n < k) : ((List.range k).map f).getD n z = f n := by
  simp [List.getD, List.getElem?_map, List.getElem?_range h]

theorem agree_mul {c0 : Nat} {p q : List Int} {F G : ℚ⟦X⟧} (hp : Agree c0 p F) (hq : Agree c0 q G) :
    Agree c0 (mulTrunc c0 p q) (F * G) := by
  intro n hn
  unfold mulTrunc
  rw [getD_map_range _ _ _ _ (by omega), coeff_mul, Finset.Nat.sum_antidiagonal_eq_sum_range_succ (fun i j => coeff i F * coeff j G),
    Finset.sum_range, ← List.sum_ofFn]
  rw [← List.map_coe_finRange_eq_range, List.map_map, List.ofFn_eq_map]
  push_cast
  rw [List.map_map]
  congr 1
  apply List.map_congr_left
  intro i _
  have hi : (i : Nat) < n + 1 := i.2
  simp only [Function.comp]
  push_cast
  rw [hp i (by omega), hq (n - i) (by omega)]

theorem numSeries_spec (Md : Nat) (p : Int) (c0 : Nat) (hc : c0 ≤ Md) (hb : Md < 2 ^ 20) :
    ∃ m1, numSeries Md p c0 = some m1 ∧ Agree c0 m1 ((X + C (p : ℚ)) ^ Md) := by
  refine ⟨(List.range (c0 + 1)).map fun i => (Md.choose i : Int) * p ^ (Md - i), ?_, ?_⟩
  · apply mapM_some
    intro i hi
    have : i < c0 + 1 := by simpa using hi
    rw [show (Md : Int) - i = ((Md - i : Nat) : Int) by omega, c27_power_exact p _ (by omega), Option.map_some, c27_choose_exact]
  · intro n hn
    rw [getD_map_range _ _ _ _ (by omega)]
    have := Polynomial.coeff_X_add_C_pow (p : ℚ) Md n
    rw [← Polynomial.coeff_coe] at this
    simp only [Polynomial.coe_pow, Polynomial.coe_add, Polynomial.coe_X, Polynomial.coe_C] at this
    rw [this]; push_cast; ring

theorem fac_inv (x : ℚ) (hx : x ≠ 0) (c : Nat) (hc : 1 ≤ c) (j : Nat) :
    coeff j (((X + C x : ℚ⟦X⟧) ^ c)⁻¹) = (-1) ^ j * ((c + j - 1).choose j : ℚ) * (x⁻¹) ^ (c + j) := by
  have h1 : (((X + C x : ℚ⟦X⟧) ^ c)⁻¹) = C ((x⁻¹) ^ c) * rescale (-x⁻¹) (invOneSubPow ℚ c).val := by
    have hcc : constantCoeff ((X + C x : ℚ⟦X⟧) ^ c) ≠ 0 := by simp [hx]
    rw [PowerSeries.inv_eq_iff_mul_eq_one hcc]
    have h2 : (1 - X : ℚ⟦X⟧) ^ c * (invOneSubPow ℚ c).val = 1 := by
      have := invOneSubPow_inv_eq_one_sub_pow (S := ℚ) (d := c)
      have h0 := (invOneSubPow ℚ c).inv_val
      rw [this] at h0
      exact h0
    have h3 := congrArg (rescale (-x⁻¹)) h2
    rw [map_mul, map_pow, map_sub, map_one, rescale_X] at h3
    have h4 : (X + C x : ℚ⟦X⟧) = C x * (1 - C (-x⁻¹) * X) := by
      have : (C x : ℚ⟦X⟧) * (C (-x⁻¹)) = -1 := by rw [← map_mul, mul_neg, mul_inv_cancel₀ hx]; simp
      linear_combination X * this
    rw [h4, mul_pow]
    have h5 : (C x : ℚ⟦X⟧) ^ c * C ((x⁻¹) ^ c) = 1 := by
      rw [← map_pow, ← map_mul, ← mul_pow, mul_inv_cancel₀ hx, one_pow, map_one]
    calc C ((x⁻¹) ^ c) * rescale (-x⁻¹) (invOneSubPow ℚ c).val * ((C x : ℚ⟦X⟧) ^ c * (1 - C (-x⁻¹) * X) ^ c)
        = ((C x : ℚ⟦X⟧) ^ c * C ((x⁻¹) ^ c)) * ((1 - C (-x⁻¹) * X) ^ c * rescale (-x⁻¹) (invOneSubPow ℚ c).val) := by ring
      _ = 1 := by rw [h5, h3, one_mul]
  rw [h1, coeff_C_mul, coeff_rescale, invOneSubPow_val_eq_mk_sub_one_add_choose_of_pos ℚ c (by omega), coeff_mk]
  have : (c - 1 + j).choose (c - 1) = (c + j - 1).choose j := by
    rw [show c - 1 + j = c + j - 1 by omega, ← Nat.choose_symm (by omega)]
    congr 1; omega
  rw [this, neg_pow, pow_add]; ring

theorem facSeries_spec (x : Int) (hx : x ≠ 0) (c c0 : Nat) (hc : 1 ≤ c) (hb : c0 < 2 ^ 20) :
    ∃ m2, facSeries x c c0 = some m2 ∧ Agree c0 m2 (C ((x : ℚ) ^ (c + c0)) * ((X + C (x : ℚ)) ^ c)⁻¹) := by
  refine ⟨(List.range (c0 + 1)).map fun j => (-1) ^ j * ((c + j - 1).choose j : Int) * x ^ (c0 - j), ?_, ?_⟩
  · apply mapM_some
    intro j hj
    have : j < c0 + 1 := by simpa using hj
    rw [show (c0 : Int) - j = ((c0 - j : Nat) : Int) by omega, c27_power_exact x _ (by omega), Option.map_some,
      aChooseB_mult c j hc]
    congr 1
    split_ifs with h
    · rw [Odd.neg_one_pow (Nat.odd_iff.2 h)]; ring
    · rw [Even.neg_one_pow (Nat.even_iff.2 (by omega))]; ring
  · intro n hn
    have hx' : (x : ℚ) ≠ 0 := by exact_mod_cast hx
    rw [getD_map_range _ _ _ _ (by omega), coeff_C_mul, fac_inv _ hx' c hc]
    push_cast
    have : (x : ℚ) ^ (c + c0) * (x : ℚ)⁻¹ ^ (c + n) = (x : ℚ) ^ (c0 - n) := by
      rw [show c + c0 = (c + n) + (c0 - n) by omega, pow_add, mul_assoc, mul_comm ((x : ℚ) ^ (c0 - n)), ← mul_assoc, ← mul_pow,
        mul_inv_cancel₀ hx', one_pow, one_mul]
    rw [← this]; ring

/-- the value of the table of distinct non-zero differences -/
noncomputable def tprod (t : List (Int × Nat)) : ℚ⟦X⟧ := (t.map fun e => (X + C (e.1 : ℚ)) ^ e.2).prod

theorem mulLoop_spec (c0 : Nat) (hb : c0 < 2 ^ 20) (rest : List (Int × Nat)) : ∀ (m1 : List Int) (F : ℚ⟦X⟧),
    (∀ e ∈ rest, e.1 ≠ 0 ∧ 1 ≤ e.2) → Agree c0 m1 F →
    ∃ pr, mulLoop c0 rest m1 = some pr ∧
      Agree c0 pr (C ((rest.map fun e => (e.1 : ℚ) ^ (e.2 + c0)).prod) * F * (tprod rest)⁻¹) := by
  induction rest with
  | nil =>
    intro m1 F _ h
    refine ⟨m1, rfl, ?_⟩
    have : (1 : ℚ⟦X⟧)⁻¹ = 1 := (PowerSeries.inv_eq_iff_mul_eq_one (by simp)).2 (mul_one 1)
    simpa [tprod, this] using h
  | cons e rest ih =>
    intro m1 F he h
    obtain ⟨x, c⟩ := e
    obtain ⟨hx, hc⟩ := he (x, c) (by simp)
    obtain ⟨m2, e2, a2⟩ := facSeries_spec x hx c c0 hc hb
    obtain ⟨pr, e3, a3⟩ := ih _ _ (fun e h => he e (by simp [h])) (agree_mul h a2)
    refine ⟨pr, ?_, ?_⟩
    · rw [mulLoop, e2]; exact e3
    · convert a3 using 1
      simp only [tprod, List.map_cons, List.prod_cons, PowerSeries.mul_inv_rev, map_mul]
      ring

theorem denLoop_spec (c0 : Nat) (rest : List (Int × Nat)) : ∀ de : Int, (∀ e ∈ rest, e.2 + c0 < 2 ^ 20) →
    denLoop c0 rest de = some (de * (rest.map fun e => e.1 ^ (e.2 + c0)).prod) := by
  induction rest with
  | nil => intro de _; simp [denLoop]
  | cons e rest ih =>
    intro de h
    obtain ⟨x, c⟩ := e
    rw [denLoop, show (c : Int) + c0 = ((c + c0 : Nat) : Int) by omega, c27_power_exact x _ (h (x, c) (by simp))]
    rw [Option.bind_some, ih _ fun e he => h e (by simp [he])]
    simp [mul_assoc]

/-! ### the table -/

/-- product over the non-zero differences -/
noncomputable def nzprod (ds : List Int) : ℚ⟦X⟧ := ((ds.filter fun x => x ≠ 0).map fun (x : Int) => X + C (x : ℚ)).prod

theorem bump_rest (x : Int) (rest : List (Int × Nat)) (hr : ∀ e ∈ rest, e.1 ≠ 0 ∧ 1 ≤ e.2) (hx : x ≠ 0) :
    (∀ e ∈ bump x rest, e.1 ≠ 0 ∧ 1 ≤ e.2) ∧ tprod (bump x rest) = tprod rest * (X + C (x : ℚ)) ∧
      (bump x rest).length ≤ rest.length + 1 ∧ ((bump x rest).map fun e => e.2).sum = (rest.map fun e => e.2).sum + 1 := by
  induction rest with
  | nil =>
    refine ⟨?_, ?_, ?_, ?_⟩
    · intro e he
      have : e = (x, 1) := by simpa [bump] using he
      subst this; exact ⟨hx, le_rfl⟩
    · simp [bump, tprod]
    · simp [bump]
    · simp [bump]
  | cons e rest ih =>
    obtain ⟨y, c⟩ := e
    obtain ⟨i1, i2, i3, i4⟩ := ih fun e he => hr e (by simp [he])
    unfold bump
    split_ifs with h
    · subst h
      refine ⟨?_, ?_, ?_, ?_⟩
      · intro e he
        rcases List.mem_cons.1 he with rfl | he
        · exact ⟨hx, by simp⟩
        · exact hr e (by simp [he])
      · simp only [tprod, List.map_cons, List.prod_cons, pow_succ]; ring
      · simp
      · simp; omega
    · refine ⟨?_, ?_, ?_, ?_⟩
      · intro e he
        rcases List.mem_cons.1 he with rfl | he
        · exact hr _ (by simp)
        · exact i1 e he
      · simp only [tprod, List.map_cons, List.prod_cons] at i2 ⊢
        rw [i2]; ring
      · simp only [List.length_cons]; omega
      · simp only [List.map_cons, List.sum_cons]; omega

theorem collect_spec (d : Nat) (ds : List Int) : ∀ (n0 : Nat) (rest : List (Int × Nat)),
    (∀ e ∈ rest, e.1 ≠ 0 ∧ 1 ≤ e.2) → rest.length + (ds.filter fun x => x ≠ 0).length + 1 ≤ d →
    ∃ rest', collect d ds ((0, n0) :: rest) = some ((0, n0 + ds.count 0) :: rest') ∧
      (∀ e ∈ rest', e.1 ≠ 0 ∧ 1 ≤ e.2) ∧ tprod rest' = tprod rest * nzprod ds ∧
      (rest'.map fun e => e.2).sum = (rest.map fun e => e.2).sum + (ds.filter fun x => x ≠ 0).length := by
  induction ds with
  | nil => intro n0 rest hr hl; exact ⟨rest, by simp [collect], hr, by simp [nzprod], by simp⟩
  | cons x ds ih =>
    intro n0 rest hr hl
    by_cases hx : x = 0
    · subst hx
      have hf : ((0 : Int) :: ds).filter (fun x => x ≠ 0) = ds.filter fun x => x ≠ 0 := by
        rw [List.filter_cons, if_neg (by simp)]
      rw [hf] at hl
      obtain ⟨rest', e, a, b, c⟩ := ih (n0 + 1) rest hr hl
      refine ⟨rest', ?_, a, ?_, by rw [hf]; exact c⟩
      · have hbump : bump 0 ((0, n0) :: rest) = (0, n0 + 1) :: rest := by simp [bump]
        simp only [collect, hbump]
        rw [if_pos (by simp only [List.length_cons]; omega), e, List.count_cons_self, show n0 + 1 + ds.count 0 = n0 + (ds.count 0 + 1) by omega]
      · rw [b]; unfold nzprod; rw [hf]
    · have hf : (x :: ds).filter (fun x => x ≠ 0) = x :: ds.filter fun x => x ≠ 0 := by
        rw [List.filter_cons, if_pos (by simpa using hx)]
      rw [hf] at hl
      obtain ⟨b1, b2, b3, b4⟩ := bump_rest x rest hr hx
      obtain ⟨rest', e, a, b, c⟩ := ih n0 (bump x rest) b1 (by simp only [List.length_cons] at hl; omega)
      refine ⟨rest', ?_, a, ?_, by rw [hf, c, b4]; simp only [List.length_cons]; omega⟩
      · have hbump : bump x ((0, n0) :: rest) = (0, n0) :: bump x rest := by simp [bump, hx]
        simp only [collect, hbump]
        rw [if_pos (by simp only [List.length_cons] at hl ⊢; omega), e, List.count_cons_of_ne hx]
      · rw [b, b2]; unfold nzprod; rw [hf]; simp only [List.map_cons, List.prod_cons]; ring

theorem reduceFrac_spec (a b : Int) (hb : b ≠ 0) :
    (((reduceFrac a b).1 : ℚ) / (reduceFrac a b).2 = a / b) ∧ (reduceFrac a b).2 ≠ 0 ∧
      Int.gcd (reduceFrac a b).1 (reduceFrac a b).2 = 1 := by
  unfold reduceFrac
  have hg : (Int.gcd a b : Int) ≠ 0 := by
    have := Int.gcd_pos_of_ne_zero_right a hb; omega
  have hgp : 0 < (Int.gcd a b : Int) := by omega
  simp only
  rw [if_pos hg]
  obtain ⟨a', ha⟩ := Int.gcd_dvd_left (a := a) (b := b)
  obtain ⟨b', hb'⟩ := Int.gcd_dvd_right (a := a) (b := b)
  have e1 : a.fdiv (Int.gcd a b) = a' := by
    rw [Int.fdiv_eq_ediv_of_nonneg _ hgp.le]
    exact Int.ediv_eq_of_eq_mul_right hg ha
  have e2 : b.fdiv (Int.gcd a b) = b' := by
    rw [Int.fdiv_eq_ediv_of_nonneg _ hgp.le]
    exact Int.ediv_eq_of_eq_mul_right hg hb'
  have hb0 : b' ≠ 0 := by rintro rfl; rw [mul_zero] at hb'; exact hb hb'
  simp only [e1, e2]
  refine ⟨?_, hb0, ?_⟩
  · have ha2 : (a : ℚ) = (Int.gcd a b : Int) * a' := by exact_mod_cast ha
    have hb2 : (b : ℚ) = (Int.gcd a b : Int) * b' := by exact_mod_cast hb'
    rw [ha2, hb2, mul_div_mul_left]
    exact_mod_cast hg
  · have := Int.gcd_div_gcd_div_gcd (i := a) (j := b) (by omega)
    have e3 : a / (Int.gcd a b : Int) = a' := by rw [← e1, Int.fdiv_eq_ediv_of_nonneg _ hgp.le]
    have e4 : b / (Int.gcd a b : Int) = b' := by rw [← e2, Int.fdiv_eq_ediv_of_nonneg _ hgp.le]
    rw [e3, e4] at this
    exact this

/-- rational copies of integers -/
def castL (xs : List Int) : List ℚ := xs.map fun (x : Int) => (x : ℚ)

theorem castL_count (xs : List Int) (y : Int) : (castL xs).count (y : ℚ) = xs.count y := by
  exact List.count_map_of_injective xs (fun (x : Int) => (x : ℚ)) Int.cast_injective y

theorem others_diffs (xs : List Int) (y : Int) : others (castL xs) (y : ℚ) = nzprod (xs.map fun x => y - x) := by
  unfold others nzprod castL
  induction xs with
  | nil => rfl
  | cons x xs ih =>
    simp only [List.map_cons]
    rw [List.filter_cons, List.filter_cons]
    by_cases h : x = y
    · subst h
      rw [if_neg (by simp), if_neg (by simp)]
      exact ih
    · rw [if_pos (by simpa using h), if_pos (by simpa using sub_ne_zero.2 (Ne.symm h))]
      rw [List.map_cons, List.prod_cons, List.map_cons, List.prod_cons, ih]
      push_cast; rfl

theorem count_diffs (xs : List Int) (y : Int) : (xs.map fun x => y - x).count 0 = xs.count y := by
  have h : Function.Injective (fun x : Int => y - x) := fun a b e => by simpa using e
  have := List.count_map_of_injective xs (fun x : Int => y - x) h y
  simpa using this

theorem filter_len (ds : List Int) : (ds.filter fun x => x ≠ 0).length + ds.count 0 = ds.length := by
  induction ds with
  | nil => rfl
  | cons x ds ih =>
    rw [List.filter_cons]
    by_cases h : x = 0
    · subst h; rw [if_neg (by simp), List.count_cons_self, List.length_cons]; omega
    · rw [if_pos (by simpa using h), List.count_cons_of_ne h, List.length_cons, List.length_cons]; omega

/-- C26, residue case: the fraction returned is the residue at the repeated value. -/
theorem computeResidue_spec (d M : Nat) (xs : List Int) (y : Int) (hl : xs.length = d + 1) (hc : 2 ≤ xs.count y)
    (hb : M + d < 2 ^ 20) (hz : ¬ (M = 0 ∧ ∀ x ∈ xs, x = 0)) :
    ∃ a b, computeResidue d M (xs.map fun x => y - x) y = some (a, b) ∧ b ≠ 0 ∧
      (a : ℚ) / b = resAt (castL xs) (M + d) y := by
  unfold computeResidue
  by_cases hy : y = 0
  · subst hy
    rw [if_pos rfl]
    refine ⟨0, 1, rfl, by norm_num, ?_⟩
    unfold resAt
    have hlt : xs.count 0 - 1 < M + d := by
      have h1 := List.count_le_length (a := (0 : Int)) (l := xs)
      rcases Nat.eq_zero_or_pos M with rfl | hM
      · have : xs.count 0 ≠ xs.length := by
          intro e
          apply hz
          exact ⟨rfl, fun x hx => ((List.count_eq_length.1 e) x hx).symm⟩
        omega
      · omega
    have hcnt := castL_count xs 0
    rw [hcnt]
    simp only [Int.cast_zero, map_zero, add_zero]
    rw [coeff_X_pow_mul', if_neg (by omega)]
    simp
  · rw [if_neg hy]
    have hcd := count_diffs xs y
    have hfl := filter_len (xs.map fun x => y - x)
    rw [hcd, List.length_map, hl] at hfl
    obtain ⟨rest, e, h1, h2, h3⟩ := collect_spec d (xs.map fun x => y - x) 0 [] (by simp) (by simp only [List.length_nil]; omega)
    rw [e]
    simp only
    rw [hcd, Nat.zero_add]
    have hsum : ∀ e ∈ rest, e.2 + (xs.count y - 1) < 2 ^ 20 := by
      intro e he
      have hle : e.2 ≤ (rest.map fun e => e.2).sum := List.single_le_sum (by simp) _ (List.mem_map_of_mem he)
      rw [h3] at hle
      simp only [List.map_nil, List.sum_nil, Nat.zero_add] at hle
      omega
    rw [denLoop_spec _ rest 1 hsum, Option.bind_some]
    obtain ⟨m1, e1, a1⟩ := numSeries_spec (M + d) y (xs.count y - 1) (by
      have := List.count_le_length (a := y) (l := xs); omega) hb
    rw [e1, Option.bind_some]
    obtain ⟨pr, e2, a2⟩ := mulLoop_spec (xs.count y - 1) (by
      have := List.count_le_length (a := y) (l := xs); omega) rest m1 _ h1 a1
    rw [e2, Option.map_some]
    have hne : (1 * (rest.map fun e => e.1 ^ (e.2 + (xs.count y - 1))).prod) ≠ 0 := by
      rw [one_mul]
      apply List.prod_ne_zero
      intro hm
      obtain ⟨e, he, h0⟩ := List.mem_map.1 hm
      exact pow_ne_zero _ (h1 e he).1 h0
    obtain ⟨r1, r2, _⟩ := reduceFrac_spec (pr.getD (xs.count y - 1) 0) _ hne
    refine ⟨(reduceFrac _ _).1, (reduceFrac _ _).2, rfl, r2, ?_⟩
    rw [r1, a2 _ le_rfl]
    unfold resAt
    rw [castL_count, others_diffs, h2]
    have : tprod [] = 1 := by simp [tprod]
    rw [this, one_mul, mul_assoc, coeff_C_mul]
    have hc2 : ((1 * (rest.map fun e => e.1 ^ (e.2 + (xs.count y - 1))).prod : Int) : ℚ) =
        (rest.map fun e => (e.1 : ℚ) ^ (e.2 + (xs.count y - 1))).prod := by
      rw [one_mul, Int.cast_list_prod, List.map_map]
      congr 1
      apply List.map_congr_left
      intro e _; simp
    rw [hc2]
    have hne' : (rest.map fun e => (e.1 : ℚ) ^ (e.2 + (xs.count y - 1))).prod ≠ 0 := by
      rw [← hc2]; exact_mod_cast hne
    rw [mul_div_assoc, mul_comm, div_mul_cancel₀]
    exact hne'

end Latte.Residue
