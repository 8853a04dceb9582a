import Verif.Residue.Integral
import Mathlib.Data.Nat.Factorial.Basic
import Mathlib.Algebra.Order.Field.Rat

/-! C26: `integrateLinFormSum`. -/

namespace Latte.Residue

open PowerSeries

theorem foldl_skip (i : Nat) (f : Nat → Int) (l : List Nat) : ∀ p : Int, (∀ j ∈ l, i ≠ j) →
    l.foldl (fun p j => if i ≠ j then p * f j else p) p = p * (l.map f).prod := by
  induction l with
  | nil => intro p _; simp
  | cons j l ih =>
    intro p h
    rw [List.foldl_cons, if_pos (h j (by simp)), ih _ fun k hk => h k (by simp [hk]), List.map_cons, List.prod_cons, mul_assoc]

theorem foldl_prod (d i : Nat) (hi : i ≤ d) (f : Nat → Int) :
    (List.range (d + 1)).foldl (fun p j => if i ≠ j then p * f j else p) 1 =
      ((List.range i).map f).prod * ((List.range' (i + 1) (d - i)).map f).prod := by
  have : List.range (d + 1) = List.range i ++ i :: List.range' (i + 1) (d - i) := by
    rw [List.range_eq_range', List.range_eq_range', show d + 1 = i + ((d - i) + 1) by omega, ← List.range'_append_1, Nat.zero_add,
      List.range'_succ]
  rw [this, List.foldl_append, List.foldl_cons, foldl_skip _ _ _ _ (by intro j hj; simp at hj; omega), if_neg (by simp),
    foldl_skip _ _ _ _ (by intro j hj; simp at hj; omega), one_mul]

theorem split_at (xs : List Int) (i : Nat) (hi : i < xs.length) (g : Int → Int) :
    (List.range i).map (fun j => g (xs.getD j 0)) = (xs.take i).map g ∧
    (List.range' (i + 1) (xs.length - 1 - i)).map (fun j => g (xs.getD j 0)) = (xs.drop (i + 1)).map g := by
  constructor
  · apply List.ext_getElem
    · simp; omega
    · intro n h1 h2
      simp at h1 h2
      simp [List.getD, List.getElem?_eq_getElem (show n < xs.length by omega)]
  · apply List.ext_getElem
    · simp; omega
    · intro n h1 h2
      simp at h1
      simp [List.getD, List.getElem?_eq_getElem (show i + 1 + n < xs.length by omega)]

theorem foldl_pow (x : Int) (l : List Nat) : ∀ n : Int, l.foldl (fun n _ => n * x) n = n * x ^ l.length := by
  induction l with
  | nil => intro n; simp
  | cons a l ih => intro n; rw [List.foldl_cons, ih, List.length_cons, pow_succ]; ring

theorem const_others (E : List Int) (x : Int) (h : x ∉ E) :
    constantCoeff (others (castL E) (x : ℚ)) = (((E.map fun t => x - t).prod : Int) : ℚ) := by
  rw [others_diffs]
  unfold nzprod
  induction E with
  | nil => simp
  | cons y E ih =>
    have hy : x - y ≠ 0 := sub_ne_zero.2 (fun e => h (by simp [e]))
    simp only [List.map_cons]
    rw [List.filter_cons, if_pos (by simpa using hy)]
    simp only [List.map_cons, List.prod_cons, map_mul, ih (fun hm => h (by simp [hm]))]
    simp

theorem resAt_simple (xs E : List Int) (x : Int) (n : Nat) (hp : xs.Perm (x :: E)) (h : x ∉ E) :
    resAt (castL xs) n x = (x : ℚ) ^ n / (((E.map fun t => x - t).prod : Int) : ℚ) := by
  unfold resAt
  have hp' : (castL xs).Perm (castL (x :: E)) := hp.map _
  rw [hp'.count_eq, others_perm hp', castL_count, List.count_cons_self, List.count_eq_zero_of_not_mem h]
  have : castL (x :: E) = (x : ℚ) :: castL E := rfl
  rw [this, others_cons_self, Nat.zero_add, Nat.sub_self, coeff_zero_eq_constantCoeff_apply, map_mul, constantCoeff_inv, const_others E x h]
  simp [div_eq_mul_inv]

theorem fracAt_spec (d m : Nat) (xs : List Int) (i : Nat) (hl : xs.length = d + 1) (hi : i ≤ d) (hb : m + d < 2 ^ 20)
    (hz : ¬ (m = 0 ∧ ∀ x ∈ xs, x = 0)) :
    ∃ a b, fracAt d m xs i = some (a, b) ∧ b ≠ 0 ∧ (a : ℚ) / b = resAt (castL xs) (m + d) (xs.getD i 0 : Int) := by
  have hi' : i < xs.length := by omega
  have hx : xs.getD i 0 = xs[i] := by simp [List.getD, List.getElem?_eq_getElem hi']
  set x := xs.getD i 0 with hxdef
  have hsplit : xs = xs.take i ++ x :: xs.drop (i + 1) := by
    rw [hx, List.getElem_cons_drop hi', List.take_append_drop]
  have hperm : xs.Perm (x :: (xs.take i ++ xs.drop (i + 1))) := by
    conv_lhs => rw [hsplit]
    exact List.perm_middle
  have hde : (List.range (d + 1)).foldl (fun p j => if i ≠ j then p * (x - xs.getD j 0) else p) 1 =
      ((xs.take i ++ xs.drop (i + 1)).map fun t => x - t).prod := by
    rw [foldl_prod d i hi (fun j => x - xs.getD j 0)]
    obtain ⟨s1, s2⟩ := split_at xs i hi' (fun t => x - t)
    rw [show xs.length - 1 - i = d - i by omega] at s2
    rw [s1, s2, List.map_append, List.prod_append]
  have hdiffs : ((List.range (d + 1)).map fun j => x - xs.getD j 0) = xs.map fun t => x - t := by
    apply List.ext_getElem
    · simp [hl]
    · intro n h1 h2
      simp at h1
      simp [List.getD, List.getElem?_eq_getElem (show n < xs.length by omega)]
  unfold fracAt
  simp only
  rw [← hxdef, hde, hdiffs, foldl_pow, List.length_range, one_mul]
  by_cases hmem : x ∈ xs.take i ++ xs.drop (i + 1)
  · have h0 : ((xs.take i ++ xs.drop (i + 1)).map fun t => x - t).prod = 0 := by
      apply List.prod_eq_zero
      exact List.mem_map.2 ⟨x, hmem, sub_self x⟩
    rw [h0]
    simp only [lt_irrefl, and_false, if_false, if_true]
    apply computeResidue_spec d m xs x hl _ hb hz
    rw [hperm.count_eq, List.count_cons_self]
    have := List.count_pos_iff.2 hmem
    omega
  · have hne : ((xs.take i ++ xs.drop (i + 1)).map fun t => x - t).prod ≠ 0 := by
      apply List.prod_ne_zero
      intro hm
      obtain ⟨t, ht, h0⟩ := List.mem_map.1 hm
      exact hmem (by rw [sub_eq_zero.1 h0]; exact ht)
    have hval := resAt_simple xs _ x (m + d) hperm hmem
    by_cases hs : x ^ (m + d) < 0 ∧ ((xs.take i ++ xs.drop (i + 1)).map fun t => x - t).prod < 0
    · rw [if_pos hs]
      rw [if_neg (by simpa using hne)]
      refine ⟨_, _, rfl, by simpa using hne, ?_⟩
      rw [hval]
      push_cast
      rw [neg_div_neg_eq]
    · rw [if_neg hs, if_neg hne]
      refine ⟨_, _, rfl, hne, ?_⟩
      rw [hval]
      push_cast
      rfl

/-! ### common denominators -/

theorem lcmStep_spec (L : Int) (f : Int × Int) (hL : L ≠ 0) (hf : f.2 ≠ 0) :
    lcmStep L f ≠ 0 ∧ L ∣ lcmStep L f ∧ f.2 ∣ lcmStep L f := by
  unfold lcmStep
  rw [if_pos hf]
  have hgp : 0 < (Int.gcd L f.2 : Int) := by have := Int.gcd_pos_of_ne_zero_left f.2 hL; omega
  obtain ⟨a, ha⟩ := Int.gcd_dvd_left (a := L) (b := f.2)
  obtain ⟨b, hb⟩ := Int.gcd_dvd_right (a := L) (b := f.2)
  have e : (L * f.2).fdiv (Int.gcd L f.2 : Int) = L * b := by
    rw [Int.fdiv_eq_ediv_of_nonneg _ hgp.le]
    apply Int.ediv_eq_of_eq_mul_right hgp.ne'
    calc L * f.2 = L * ((Int.gcd L f.2 : Int) * b) := by rw [← hb]
      _ = _ := by ring
  have e' : L * b = f.2 * a := by
    have : (Int.gcd L f.2 : Int) * (L * b) = (Int.gcd L f.2 : Int) * (f.2 * a) := by
      calc (Int.gcd L f.2 : Int) * (L * b) = L * ((Int.gcd L f.2 : Int) * b) := by ring
        _ = L * f.2 := by rw [← hb]
        _ = f.2 * L := by ring
        _ = f.2 * ((Int.gcd L f.2 : Int) * a) := by rw [← ha]
        _ = _ := by ring
    exact Int.eq_of_mul_eq_mul_left hgp.ne' this
  rw [e]
  refine ⟨mul_ne_zero hL ?_, Dvd.intro _ rfl, e' ▸ Dvd.intro _ rfl⟩
  rintro rfl
  rw [mul_zero] at hb; exact hf hb

theorem lcm_fold (fs : List (Int × Int)) : ∀ L : Int, L ≠ 0 → (∀ f ∈ fs, f.2 ≠ 0) →
    fs.foldl lcmStep L ≠ 0 ∧ L ∣ fs.foldl lcmStep L ∧ ∀ f ∈ fs, f.2 ∣ fs.foldl lcmStep L := by
  induction fs with
  | nil => intro L hL _; exact ⟨hL, dvd_rfl, by simp⟩
  | cons f fs ih =>
    intro L hL h
    obtain ⟨a1, a2, a3⟩ := lcmStep_spec L f hL (h f (by simp))
    obtain ⟨b1, b2, b3⟩ := ih _ a1 fun g hg => h g (by simp [hg])
    rw [List.foldl_cons]
    refine ⟨b1, a2.trans b2, ?_⟩
    intro g hg
    rcases List.mem_cons.1 hg with rfl | hg
    · exact a3.trans b2
    · exact b3 g hg

theorem total_fold (L : Int) (hL : L ≠ 0) (fs : List (Int × Int)) : ∀ t : Int, (∀ f ∈ fs, f.2 ≠ 0 ∧ f.2 ∣ L) →
    ((fs.foldl (totalStep L) t : Int) : ℚ) / L = t / L + (fs.map fun f => (f.1 : ℚ) / f.2).sum := by
  induction fs with
  | nil => intro t _; simp
  | cons f fs ih =>
    intro t h
    obtain ⟨h1, k, hk⟩ := h f (by simp)
    rw [List.foldl_cons, ih _ fun g hg => h g (by simp [hg]), List.map_cons, List.sum_cons]
    unfold totalStep
    rw [if_pos h1]
    have e : L.fdiv f.2 = k := by rw [hk, Int.mul_fdiv_cancel_left _ h1]
    rw [e]
    have hLq : (L : ℚ) = f.2 * k := by exact_mod_cast hk
    have h1q : (f.2 : ℚ) ≠ 0 := by exact_mod_cast h1
    have hkq : (k : ℚ) ≠ 0 := by
      have : k ≠ 0 := by rintro rfl; rw [mul_zero] at hk; exact hL hk
      exact_mod_cast this
    push_cast
    rw [hLq]
    field_simp
    ring

/-- values of the form at the vertices -/
def formValues (S : Simplex) (l : List Int) : List Int := (List.range (S.d + 1)).map fun i => innerPro S.d l (S.s.getD i [])

theorem firsts_nodup (xs : List Int) : ∀ n, n ≤ xs.length →
    (((List.range n).filter fun i => !isRepeat xs i).map fun i => xs.getD i 0).Nodup ∧
    ∀ y, y ∈ (((List.range n).filter fun i => !isRepeat xs i).map fun i => xs.getD i 0) ↔ y ∈ xs.take n := by
  intro n
  induction n with
  | zero => intro _; simp
  | succ n ih =>
    intro hn
    obtain ⟨h1, h2⟩ := ih (by omega)
    have hlt : n < xs.length := by omega
    have hx : xs.getD n 0 = xs[n] := by simp [List.getD, List.getElem?_eq_getElem hlt]
    rw [List.range_succ, List.filter_append, List.map_append]
    have htake : xs.take (n + 1) = xs.take n ++ [xs[n]] := List.take_succ_eq_append_getElem hlt
    by_cases hr : isRepeat xs n = true
    · have : [n].filter (fun i => !isRepeat xs i) = [] := by simp [hr]
      rw [this]
      simp only [List.map_nil, List.append_nil]
      refine ⟨h1, fun y => ?_⟩
      rw [h2, htake, List.mem_append]
      constructor
      · exact Or.inl
      · rintro (h | h)
        · exact h
        · have : y = xs[n] := by simpa using h
          unfold isRepeat at hr
          rw [hx] at hr
          rw [this]; simpa using hr
    · have hr' : isRepeat xs n = false := by simpa using hr
      have : [n].filter (fun i => !isRepeat xs i) = [n] := by simp [hr']
      rw [this]
      simp only [List.map_cons, List.map_nil, hx]
      have hnot : xs[n] ∉ xs.take n := by
        unfold isRepeat at hr
        rw [hx] at hr
        simpa using hr
      refine ⟨?_, fun y => ?_⟩
      · apply List.Nodup.append h1 (by simp)
        intro y hy1 hy2
        have : y = xs[n] := by simpa using hy2
        subst this
        exact hnot ((h2 _).1 hy1)
      · rw [List.mem_append, h2, htake, List.mem_append]

theorem sum_firsts (xs : List Int) (g : ℚ → ℚ) :
    (((List.range xs.length).filter fun i => !isRepeat xs i).map fun i => g ((xs.getD i 0 : Int) : ℚ)).sum =
      ∑ y ∈ (castL xs).toFinset, g y := by
  obtain ⟨h1, h2⟩ := firsts_nodup xs xs.length le_rfl
  rw [List.take_length] at h2
  set L := (((List.range xs.length).filter fun i => !isRepeat xs i).map fun i => xs.getD i 0) with hL
  have e1 : (castL xs).toFinset = (castL L).toFinset := by
    ext y
    simp only [List.mem_toFinset, castL, List.mem_map, h2]
  have nd : (castL L).Nodup := by
    unfold castL
    exact h1.map (Int.cast_injective)
  rw [e1, List.sum_toFinset _ nd]
  unfold castL
  rw [hL, List.map_map, List.map_map]
  rfl

/-- one call of `update` adds the integral of one power of a linear form -/
theorem update_spec (ab : Int × Int) (l : List Int) (S : Simplex) (m : Nat) (coeN coeD de : Int)
    (hd : S.d < 1000) (hb : m + S.d < 2 ^ 20) (hz : ¬ (m = 0 ∧ ∀ x ∈ formValues S l, x = 0))
    (hcd : coeD ≠ 0) (hde : de ≠ 0) (hab : ab.1 = 0 ∨ ab.2 ≠ 0) :
    ∃ a b, update ab l S m coeN coeD de = some (a, b) ∧ b ≠ 0 ∧ Int.gcd a b = 1 ∧
      (a : ℚ) / b = ab.1 / ab.2 + (coeN : ℚ) / coeD * S.v * hsum m (castL (formValues S l)) / de := by
  set xs := formValues S l with hxs
  have hl : xs.length = S.d + 1 := by simp [hxs, formValues]
  have hfrac : ∀ i ∈ (List.range (S.d + 1)).filter fun i => !isRepeat xs i, ∃ ab : Int × Int, fracAt S.d m xs i = some ab ∧
      ab.2 ≠ 0 ∧ (ab.1 : ℚ) / ab.2 = resAt (castL xs) (m + S.d) (xs.getD i 0 : Int) := by
    intro i hi
    have hi' : i < S.d + 1 := by simpa using (List.mem_filter.1 hi).1
    obtain ⟨a, b, e, h1, h2⟩ := fracAt_spec S.d m xs i hl (by omega) hb hz
    exact ⟨(a, b), e, h1, h2⟩
  classical
  let g : Nat → Int × Int := fun i => if h : i ∈ (List.range (S.d + 1)).filter fun i => !isRepeat xs i then (hfrac i h).choose else (0, 1)
  have hg : ∀ i ∈ (List.range (S.d + 1)).filter fun i => !isRepeat xs i, fracAt S.d m xs i = some (g i) ∧ (g i).2 ≠ 0 ∧
      ((g i).1 : ℚ) / (g i).2 = resAt (castL xs) (m + S.d) (xs.getD i 0 : Int) := by
    intro i hi
    have : g i = (hfrac i hi).choose := by simp only [g]; rw [dif_pos hi]
    rw [this]
    exact (hfrac i hi).choose_spec
  set I := (List.range (S.d + 1)).filter fun i => !isRepeat xs i with hI
  have hfs : (I.mapM fun i => fracAt S.d m xs i) = some (I.map g) := mapM_some fun i hi => (hg i hi).1
  have hnz : ∀ f ∈ I.map g, f.2 ≠ 0 := by
    intro f hf
    obtain ⟨i, hi, rfl⟩ := List.mem_map.1 hf
    exact (hg i hi).2.1
  obtain ⟨L1, _, L3⟩ := lcm_fold (I.map g) 1 one_ne_zero hnz
  have htot := total_fold _ L1 (I.map g) 0 (fun f hf => ⟨hnz f hf, L3 f hf⟩)
  have hsumeq : ((I.map g).map fun f => (f.1 : ℚ) / f.2).sum = hsum m (castL xs) := by
    have hcl : (castL xs).length = S.d + 1 := by simp [castL, hl]
    rw [← resSum_eq_hsum S.d (castL xs) m hcl]
    unfold resSum
    rw [← sum_firsts xs (fun y => resAt (castL xs) (m + S.d) y), List.map_map, hl]
    congr 1
    apply List.map_congr_left
    intro i hi
    exact (hg i hi).2.2
  rw [hsumeq] at htot
  set L := (I.map g).foldl lcmStep 1 with hLdef
  set T := (I.map g).foldl (totalStep L) 0 with hTdef
  have hLd : L * de * coeD ≠ 0 := mul_ne_zero (mul_ne_zero L1 hde) hcd
  have hval : ((T * S.v * coeN : Int) : ℚ) / ((L * de * coeD : Int) : ℚ) = (coeN : ℚ) / coeD * S.v * hsum m (castL xs) / de := by
    have hT : (T : ℚ) / L = hsum m (castL xs) := by simpa using htot
    rw [← hT]
    push_cast
    have : (L : ℚ) ≠ 0 := by exact_mod_cast L1
    have : (de : ℚ) ≠ 0 := by exact_mod_cast hde
    have : (coeD : ℚ) ≠ 0 := by exact_mod_cast hcd
    field_simp
  unfold update
  rw [if_neg (by omega)]
  simp only
  rw [show ((List.range (S.d + 1)).map fun i => innerPro S.d l (S.s.getD i [])) = xs from rfl, ← hI, hfs, Option.map_some]
  rw [← hLdef, ← hTdef]
  by_cases ha : ab.1 = 0
  · rw [if_pos ha]
    simp only
    obtain ⟨r1, r2, r3⟩ := reduceFrac_spec (T * S.v * coeN) _ hLd
    refine ⟨(reduceFrac _ _).1, (reduceFrac _ _).2, rfl, r2, r3, ?_⟩
    rw [r1, hval, ha]; simp
  · have hb0 : ab.2 ≠ 0 := by
      rcases hab with h | h
      · exact absurd h ha
      · exact h
    rw [if_neg ha, if_pos ⟨hLd, hb0⟩]
    simp only
    set D := L * de * coeD with hD
    set N := T * S.v * coeN with hN
    obtain ⟨s1, s2, s3⟩ := lcmStep_spec ab.2 (0, D) hb0 hLd
    have htem : (ab.2 * D).fdiv (Int.gcd ab.2 D : Int) = lcmStep ab.2 (0, D) := by
      unfold lcmStep; rw [if_pos hLd]
    rw [htem]
    set tem := lcmStep ab.2 (0, D) with htemdef
    obtain ⟨k1, hk1⟩ := s2
    obtain ⟨k2, hk2⟩ := s3
    simp only at hk2
    have e1 : (ab.1 * tem).fdiv ab.2 = ab.1 * k1 := by
      rw [show ab.1 * tem = ab.2 * (ab.1 * k1) by rw [hk1]; ring, Int.mul_fdiv_cancel_left _ hb0]
    have e2 : (N * tem).fdiv D = N * k2 := by
      rw [show N * tem = D * (N * k2) by rw [hk2]; ring, Int.mul_fdiv_cancel_left _ hLd]
    rw [e1, e2]
    obtain ⟨r1, r2, r3⟩ := reduceFrac_spec (ab.1 * k1 + N * k2) tem s1
    refine ⟨(reduceFrac _ _).1, (reduceFrac _ _).2, rfl, r2, r3, ?_⟩
    rw [r1, ← hval]
    have hb0q : (ab.2 : ℚ) ≠ 0 := by exact_mod_cast hb0
    have hDq : (D : ℚ) ≠ 0 := by exact_mod_cast hLd
    have hteq : (tem : ℚ) ≠ 0 := by exact_mod_cast s1
    have q1 : (tem : ℚ) = ab.2 * k1 := by exact_mod_cast hk1
    have q2 : (tem : ℚ) = D * k2 := by exact_mod_cast hk2
    have a1 : (ab.1 : ℚ) / ab.2 = ab.1 * k1 / tem := by
      rw [div_eq_div_iff hb0q hteq, q1]; ring
    have a2 : (N : ℚ) / D = N * k2 / tem := by
      rw [div_eq_div_iff hDq hteq, q2]; ring
    rw [a1, a2]; push_cast; ring

theorem fact_fold (n : Nat) : (List.range n).foldl (fun (de : Int) (i : Nat) => de * ((i : Int) + 1)) 1 = (n.factorial : Int) := by
  induction n with
  | zero => rfl
  | succ n ih =>
    rw [List.range_succ, List.foldl_append, ih, List.foldl_cons, List.foldl_nil, Nat.factorial_succ]
    push_cast; ring

/-- the contribution of one stored power of a linear form: `coef · v · h_m(⟨l,s_0⟩,…,⟨l,s_d⟩) / (m+d)!`, where the stored
coefficient already contains the factor `m!` and `v` is `d!` times the volume -/
def formValue (S : Simplex) (f : LForm) : ℚ :=
  (f.coeN : ℚ) / f.coeD * S.v * hsum f.deg (castL (formValues S f.l)) / ((f.deg + S.d).factorial : ℚ)

/-- which forms the routine handles: the coefficient is a fraction, the powers fit the helper's array, and the form is
not the constant one written with all values zero -/
def FormOk (S : Simplex) (f : LForm) : Prop :=
  f.coeD ≠ 0 ∧ f.deg + S.d < 2 ^ 20 ∧ ¬ (f.deg = 0 ∧ ∀ x ∈ formValues S f.l, x = 0)

theorem formLoop_spec (S : Simplex) (hd : S.d < 1000) (fs : List LForm) : ∀ ab : Int × Int, (∀ f ∈ fs, FormOk S f) →
    (ab.1 = 0 ∨ ab.2 ≠ 0) → (ab = (0, 0) ∨ (ab.2 ≠ 0 ∧ Int.gcd ab.1 ab.2 = 1)) →
    ∃ a b, formLoop S fs ab = some (a, b) ∧ (a : ℚ) / b = ab.1 / ab.2 + (fs.map (formValue S)).sum ∧
      ((fs = [] ∧ (a, b) = ab) ∨ (b ≠ 0 ∧ Int.gcd a b = 1)) := by
  induction fs with
  | nil => intro ab _ _ _; exact ⟨ab.1, ab.2, rfl, by simp, Or.inl ⟨rfl, rfl⟩⟩
  | cons f fs ih =>
    intro ab hf hab hn
    obtain ⟨h1, h2, h3⟩ := hf f (by simp)
    obtain ⟨a, b, e, hb, hg, hv⟩ := update_spec ab f.l S f.deg f.coeN f.coeD ((S.d + f.deg).factorial : Int) hd h2 h3 h1
      (by exact_mod_cast Nat.factorial_ne_zero _) hab
    obtain ⟨a', b', e', hv', hn'⟩ := ih (a, b) (fun g hg => hf g (by simp [hg])) (Or.inr hb) (Or.inr ⟨hb, hg⟩)
    refine ⟨a', b', ?_, ?_, ?_⟩
    · rw [formLoop]
      simp only [fact_fold]
      rw [e, Option.bind_some, e']
    · rw [hv']
      simp only [hv, List.map_cons, List.sum_cons, formValue]
      rw [Nat.add_comm S.d f.deg]
      push_cast
      ring
    · right
      rcases hn' with ⟨rfl, he⟩ | h
      · have : (a', b') = (a, b) := he
        rw [Prod.mk.injEq] at this
        rw [this.1, this.2]; exact ⟨hb, hg⟩
      · exact h

/-- C26: for every simplex of dimension less than 1000, and every non-empty list of powers of linear forms, regular or
not, the fraction returned is in lowest terms with positive denominator and equals the sum over the forms of
`coef · v · h_m(⟨l,s_0⟩,…,⟨l,s_d⟩)/(m+d)!`. -/
theorem c26_integrateLinFormSum (S : Simplex) (hd : S.d < 1000) (fs : List LForm) (hne : fs ≠ []) (hf : ∀ f ∈ fs, FormOk S f) :
    ∃ a b, integrateLinFormSum S fs = some (a, b) ∧ 0 < b ∧ Int.gcd a b = 1 ∧ (a : ℚ) / b = (fs.map (formValue S)).sum := by
  obtain ⟨a, b, e, hv, hn⟩ := formLoop_spec S hd fs (0, 0) hf (Or.inl rfl) (Or.inl rfl)
  rcases hn with ⟨h, _⟩ | ⟨hb, hg⟩
  · exact absurd h hne
  unfold integrateLinFormSum
  rw [e, Option.map_some]
  simp only
  by_cases h : b < 0
  · rw [if_pos h]
    refine ⟨a * -1, b * -1, rfl, by omega, by simpa using hg, ?_⟩
    push_cast
    rw [mul_neg_one, mul_neg_one, neg_div_neg_eq, hv]; simp
  · rw [if_neg h]
    refine ⟨a, b, rfl, by omega, hg, ?_⟩
    rw [hv]; simp

/-- the excluded case: a constant stored with a form vanishing at every vertex is silently dropped. -/
theorem c26_constant_form_dropped : integrateLinFormSum ⟨1, [[0], [1]], 1⟩ [⟨1, 1, 0, [0]⟩] = some (0, 1) ∧
    formValue ⟨1, [[0], [1]], 1⟩ ⟨1, 1, 0, [0]⟩ = 1 := by
  constructor
  · decide +kernel
  · simp [formValue, hsum]

/-- non-vacuity: an irregular form on a triangle. -/
example : FormOk ⟨2, [[0, 0], [1, 0], [0, 1]], 1⟩ ⟨2, 1, 2, [1, 1]⟩ := by
  refine ⟨by norm_num, by norm_num, by simp⟩

end Latte.Residue
