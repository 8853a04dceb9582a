import Verif.Valuation.Integral

/-! Dilation of polynomials and of sums of powers of linear forms. -/

namespace Verif.Valuation

open Set Verif.Trie

/-- **Specification.** Input polynomials: monomials with natural exponents in `n` variables, non-zero coefficients, no monomial twice. -/
structure PolyIn (n : ℕ) (xs : List (Term ℚ)) : Prop where
  ne : xs ≠ []
  mono : ∀ x ∈ xs, x.coef ≠ 0 ∧ x.degree = -1 ∧ x.exps.length = n ∧ ∀ e ∈ x.exps, 0 ≤ e
  nodup : (xs.map (·.exps)).Nodup

theorem foldl_sum (l : List ℤ) : l.foldl (fun a e => a + e) 0 = l.sum := by
  rw [List.sum_eq_foldl]

/-- the terms that are re-inserted -/
def scaled (D : ℤ) (t : Term ℚ) : Term ℚ := ⟨t.coef / (D : ℚ) ^ t.exps.sum.toNat, t.exps, -1⟩

theorem dilLoop_eq (D : ℤ) (ts : List (Term ℚ)) (h : ∀ t ∈ ts, ∀ e ∈ t.exps, 0 ≤ e) : ∀ (c : ℚ) (k : ℕ) (s : Sum ℚ),
    dilLoop D ts c k s = (insertAll s ((ts.filter fun t => t.exps.sum ≠ 0).map (scaled D))).map fun s' =>
      (c + ((ts.filter fun t => t.exps.sum = 0).map (·.coef)).sum, k + (ts.filter fun t => t.exps.sum = 0).length, s') := by
  induction ts with
  | nil => intro c k s; simp [dilLoop, insertAll]
  | cons t ts ih =>
    intro c k s
    have hih := ih fun u hu => h u (by simp [hu])
    have hnn : 0 ≤ t.exps.sum := List.sum_nonneg fun e he => h t (by simp) e he
    rw [dilLoop]
    simp only [foldl_sum]
    rw [if_neg (by omega)]
    by_cases h0 : t.exps.sum = 0
    · rw [if_pos h0, hih]
      simp only [h0, List.filter_cons, ne_eq, not_true, decide_false, if_true, decide_true, Int.toNat_zero, pow_zero, div_one,
        List.map_cons, List.sum_cons, List.length_cons]
      congr 1
      funext s'
      rw [add_assoc, show k + 1 + (ts.filter fun t => decide (t.exps.sum = 0)).length = k + ((ts.filter fun t => decide (t.exps.sum = 0)).length + 1) by omega]
    · rw [if_neg h0]
      simp only [h0, List.filter_cons, ne_eq, not_false_eq_true, decide_true, if_true, decide_false, List.map_cons, Bool.false_eq_true,
        if_false]
      have : insertAll s (scaled D t :: ((ts.filter fun t => !decide (t.exps.sum = 0)).map (scaled D))) =
          (insertSum s (scaled D t)).bind fun s' => insertAll s' ((ts.filter fun t => !decide (t.exps.sum = 0)).map (scaled D)) := by
        rw [show scaled D t :: ((ts.filter fun t => !decide (t.exps.sum = 0)).map (scaled D)) =
          [scaled D t] ++ ((ts.filter fun t => !decide (t.exps.sum = 0)).map (scaled D)) from rfl, insertAll_append]
        rfl
      simp only [decide_not] at this ⊢
      rw [this]
      show (insertSum s (scaled D t)).bind _ = _
      cases insertSum s (scaled D t) with
      | none => rfl
      | some s' => simp only [Option.bind_some]; rw [hih]; simp only [ne_eq, decide_not]

theorem polyAt_mono (n : ℕ) (ts : List (Term ℚ)) (x : Fin n → ℝ) :
    polyAt (monoPoly n ts) x = (ts.map fun t => (t.coef : ℝ) * ∏ j : Fin n, x j ^ (t.exps.getD j 0).toNat).sum := by
  unfold monoPoly polyAt
  induction ts with
  | nil => simp
  | cons t ts ih =>
    simp only [List.map_cons, List.sum_cons, map_add, ih]
    congr 1
    simp [map_mul, map_prod]

theorem sum_toNat_fin (n : ℕ) (es : List ℤ) (hl : es.length = n) (h : ∀ e ∈ es, 0 ≤ e) :
    es.sum.toNat = ∑ j : Fin n, (es.getD j 0).toNat := by
  subst hl
  have h1 : es.sum = ∑ j : Fin es.length, es.getD j 0 := by
    conv_lhs => rw [← List.ofFn_getElem (xs := es)]
    rw [List.sum_ofFn]
    apply Finset.sum_congr rfl
    intro j _
    rw [List.getD_eq_getElem _ _ j.2]
  have h2 : es.sum = ((∑ j : Fin es.length, (es.getD j 0).toNat : ℕ) : ℤ) := by
    rw [h1]; push_cast
    apply Finset.sum_congr rfl
    intro j _
    have : 0 ≤ es.getD j 0 := by
      rw [List.getD_eq_getElem _ _ j.2]
      exact h _ (List.getElem_mem _)
    omega
  omega

theorem scaled_value (n : ℕ) (D : ℤ) (hD : D ≠ 0) (t : Term ℚ) (hl : t.exps.length = n) (h : ∀ e ∈ t.exps, 0 ≤ e) (x : Fin n → ℝ) :
    ((scaled D t).coef : ℝ) * ∏ j : Fin n, ((D : ℝ) • x) j ^ ((scaled D t).exps.getD j 0).toNat =
      (t.coef : ℝ) * ∏ j : Fin n, x j ^ (t.exps.getD j 0).toNat := by
  unfold scaled
  simp only [Pi.smul_apply, smul_eq_mul, mul_pow, Finset.prod_mul_distrib, Finset.prod_pow_eq_pow_sum]
  rw [sum_toNat_fin n t.exps hl h]
  push_cast
  have : (D : ℝ) ≠ 0 := by exact_mod_cast hD
  field_simp

theorem zero_of_sum (es : List ℤ) (h : ∀ e ∈ es, 0 ≤ e) (h0 : es.sum = 0) : es = List.replicate es.length 0 := by
  rw [List.eq_replicate_iff]
  refine ⟨rfl, ?_⟩
  induction es with
  | nil => simp
  | cons e es ih =>
    have h1 : 0 ≤ es.sum := List.sum_nonneg fun e he => h e (by simp [he])
    have h2 := h e (by simp)
    rw [List.sum_cons] at h0
    intro b hb
    rcases List.mem_cons.1 hb with rfl | hb
    · omega
    · exact ih (fun e he => h e (by simp [he])) (by omega) b hb

/-- splitting off the constant terms and rescaling -/
theorem mono_split (n : ℕ) (D : ℤ) (hD : D ≠ 0) (ts : List (Term ℚ)) (h : ∀ t ∈ ts, t.exps.length = n ∧ ∀ e ∈ t.exps, 0 ≤ e)
    (x : Fin n → ℝ) :
    polyAt (monoPoly n ts) x = ((((ts.filter fun t => t.exps.sum = 0).map (·.coef)).sum : ℚ) : ℝ) +
      polyAt (monoPoly n ((ts.filter fun t => t.exps.sum ≠ 0).map (scaled D))) ((D : ℝ) • x) := by
  rw [polyAt_mono, polyAt_mono]
  induction ts with
  | nil => simp
  | cons t ts ih =>
    have hih := ih fun u hu => h u (by simp [hu])
    obtain ⟨h1, h2⟩ := h t (by simp)
    rw [List.map_cons, List.sum_cons, hih]
    by_cases h0 : t.exps.sum = 0
    · simp only [h0, List.filter_cons, ne_eq, not_true, decide_false, if_true, decide_true, List.map_cons, List.sum_cons,
        Bool.false_eq_true, if_false]
      have : (∏ j : Fin n, x j ^ (t.exps.getD j 0).toNat) = 1 := by
        apply Finset.prod_eq_one
        intro j _
        have hz := zero_of_sum t.exps h2 h0
        have : t.exps.getD j 0 = 0 := by
          rw [hz]; simp only [List.getD_eq_getElem?_getD, List.getElem?_replicate]; split_ifs <;> rfl
        rw [this]; simp
      rw [this]
      push_cast
      ring
    · simp only [h0, List.filter_cons, ne_eq, not_false_eq_true, decide_true, if_true, decide_false, List.map_cons, Bool.false_eq_true,
        if_false, List.sum_cons]
      rw [scaled_value n D hD t h1 h2]
      ring

/-- monomials with distinct exponents do not cancel -/
theorem monoPoly_ne_zero (n : ℕ) (xs : List (Term ℚ)) (hne : xs ≠ []) (h : ∀ x ∈ xs, x.coef ≠ 0 ∧ x.exps.length = n ∧ ∀ e ∈ x.exps, 0 ≤ e)
    (hd : (xs.map (·.exps)).Nodup) : monoPoly n xs ≠ 0 := by
  classical
  intro h0
  cases xs with
  | nil => exact hne rfl
  | cons x xs =>
    let M : Term ℚ → (Fin n →₀ ℕ) := fun t => Finsupp.equivFunOnFinite.symm fun j => (t.exps.getD j 0).toNat
    have hm : ∀ t : Term ℚ, (MvPolynomial.C t.coef * ∏ j : Fin n, MvPolynomial.X j ^ (t.exps.getD j 0).toNat : MvPolynomial (Fin n) ℚ) =
        MvPolynomial.monomial (M t) t.coef := by
      intro t
      rw [MvPolynomial.monomial_eq, Finsupp.prod_fintype _ _ (by simp)]
      rfl
    have hinj : ∀ t ∈ xs, M t ≠ M x := by
      intro t ht e
      rw [List.map_cons, List.nodup_cons] at hd
      apply hd.1
      rw [List.mem_map]
      refine ⟨t, ht, ?_⟩
      obtain ⟨_, l1, p1⟩ := h t (by simp [ht])
      obtain ⟨_, l2, p2⟩ := h x (by simp)
      apply List.ext_getElem (by rw [l1, l2])
      intro i h1 h2
      have := DFunLike.congr_fun e (⟨i, by omega⟩ : Fin n)
      simp only [M, Finsupp.equivFunOnFinite_symm_apply_apply] at this
      rw [List.getD_eq_getElem _ _ h1, List.getD_eq_getElem _ _ h2] at this
      have a := p1 _ (List.getElem_mem h1)
      have b := p2 _ (List.getElem_mem h2)
      omega
    have hc := congrArg (MvPolynomial.coeff (M x)) h0
    unfold monoPoly at hc
    simp only [List.map_cons, List.sum_cons, hm, MvPolynomial.coeff_add, MvPolynomial.coeff_monomial, if_true, MvPolynomial.coeff_zero] at hc
    have hz : ∀ l : List (Term ℚ), (∀ t ∈ l, M t ≠ M x) → MvPolynomial.coeff (M x) ((l.map fun t => MvPolynomial.monomial (M t) t.coef).sum) = 0 := by
      intro l hl
      induction l with
      | nil => simp
      | cons t l ih =>
        rw [List.map_cons, List.sum_cons, MvPolynomial.coeff_add, ih fun u hu => hl u (by simp [hu]), MvPolynomial.coeff_monomial,
          if_neg (hl t (by simp))]; simp
    rw [hz xs hinj, add_zero] at hc
    exact (h x (by simp)).1 hc

theorem coefAt_of_nodup (l : List (Term ℚ)) (hd : (l.map (·.exps)).Nodup) (t : Term ℚ) (ht : t ∈ l) : coefAt t.key l = t.coef := by
  induction l with
  | nil => simp at ht
  | cons x l ih =>
    rw [List.map_cons, List.nodup_cons] at hd
    have hne : ∀ b ∈ l, x.key ≠ b.key := by
      intro b hb hk
      apply hd.1
      rw [List.mem_map]
      exact ⟨b, hb, (congrArg Prod.snd hk).symm⟩
    rw [coefAt_cons]
    rcases List.mem_cons.mp ht with rfl | ht
    · rw [one, if_pos rfl, coefAt_of_not_mem _ _ (fun b hb h => hne b hb h.symm), add_zero]
    · rw [one, if_neg (hne t ht), zero_add]
      exact ih hd.2 ht

/-- what the store delivers for an input polynomial -/
theorem drained (n : ℕ) (hn : 0 < n) (xs : List (Term ℚ)) (h : PolyIn n xs) :
    ∃ s out N, insertAll (emptySum ℚ n) xs = some s ∧ s.termCount = xs.length ∧ s.varCount = n ∧
      (∀ fuel rounds, N ≤ fuel → N ≤ rounds → drain fuel rounds (begin' s.trie n) = some out) ∧
      PolyIn n out ∧ out.length = xs.length ∧ monoPoly n out = monoPoly n xs ∧ (∀ t ∈ out, ∃ x ∈ xs, t.exps = x.exps) := by
  obtain ⟨x0, hx0⟩ := List.exists_mem_of_ne_nil xs h.ne
  obtain ⟨s, out, N, e, o, d, a1, a2, a3⟩ := insertAll_drain n hn xs (fun x hx => (h.mono x hx).2.2.1) ⟨x0, hx0, (h.mono x0 hx0).1⟩
  have hfrom : ∀ t ∈ out, ∃ x ∈ xs, x.key = t.key := delivered_from xs out (fun t ht => (a1 t ht).1) a2 a3
  have hto : ∀ x ∈ xs, ∃ t ∈ out, t.key = x.key := by
    intro x hx
    by_contra hno
    push Not at hno
    have := coefAt_of_nodup xs h.nodup x hx
    rw [← a2, coefAt_of_not_mem _ _ hno] at this
    exact (h.mono x hx).1 this.symm
  have hdeg : ∀ t ∈ out, t.degree = -1 := by
    intro t ht
    obtain ⟨x, hx, hk⟩ := hfrom t ht
    have : x.degree = t.degree := congrArg Prod.fst hk
    rw [← this, (h.mono x hx).2.1]
  have hnd : (out.map (·.exps)).Nodup := by
    rw [List.Nodup, List.pairwise_map]
    refine a3.imp_of_mem ?_
    intro a b ha hb hab he
    have := hab (by rw [hdeg a ha, hdeg b hb])
    rw [he] at this
    exact lex_irrefl this
  have hperm : (out.map (·.exps)).Perm (xs.map (·.exps)) := by
    rw [List.perm_ext_iff_of_nodup hnd h.nodup]
    intro es
    simp only [List.mem_map]
    constructor
    · rintro ⟨t, ht, rfl⟩
      obtain ⟨x, hx, hk⟩ := hfrom t ht
      exact ⟨x, hx, congrArg Prod.snd hk⟩
    · rintro ⟨x, hx, rfl⟩
      obtain ⟨t, ht, hk⟩ := hto x hx
      exact ⟨t, ht, congrArg Prod.snd hk⟩
  refine ⟨s, out, N, e, ?_, o.vars, d, ⟨?_, ?_, hnd⟩, ?_, monoPoly_congr n out xs a2, ?_⟩
  · rw [o.count]
    have : nonzero xs = xs := by
      unfold nonzero
      rw [List.filter_eq_self]
      intro x hx
      simpa using (h.mono x hx).1
    rw [this]
  · obtain ⟨t, ht, _⟩ := hto x0 hx0
    exact List.ne_nil_of_mem ht
  · intro t ht
    obtain ⟨x, hx, hk⟩ := hfrom t ht
    have hxe : x.exps = t.exps := congrArg Prod.snd hk
    exact ⟨(a1 t ht).1, hdeg t ht, (a1 t ht).2, by rw [← hxe]; exact (h.mono x hx).2.2.2⟩
  · simpa using hperm.length_eq
  · intro t ht
    obtain ⟨x, hx, hk⟩ := hfrom t ht
    exact ⟨x, hx, (congrArg Prod.snd hk).symm⟩

/-- the dilated polynomial as powers of linear forms, with the constant term split off -/
theorem dilatePolynomial_spec (n : ℕ) (hn : 0 < n) (xs : List (Term ℚ)) (h : PolyIn n xs) (D : ℤ) (hD : D ≠ 0) :
    ∃ poly lf c out N, insertAll (emptySum ℚ n) xs = some poly ∧
      (∀ fuel rounds, N ≤ fuel → N ≤ rounds → dilatePolynomial fuel rounds poly D = some (lf, c) ∧
        (lf.termCount ≠ 0 → drain fuel rounds (begin' lf.trie n) = some out)) ∧
      lf.varCount = n ∧ (lf.termCount = 0 ↔ out = []) ∧
      (∀ t ∈ out, 0 < t.degree ∧ t.exps.length = n ∧ ∃ x ∈ xs, t.degree = x.exps.sum) ∧
      ∀ x : Fin n → ℝ, polyAt (monoPoly n xs) x = c + polyAt (formsPoly n out) ((D : ℝ) • x) := by
  obtain ⟨poly, ts, N, e, hcount, hvar, d, hts, hlen, hpoly, hfrom⟩ := drained n hn xs h
  set ys := (ts.filter fun t => t.exps.sum ≠ 0).map (scaled D) with hys
  have hsplit := mono_split n D hD ts (fun t ht => (hts.mono t ht).2.2)
  have hysl : ∀ y ∈ ys, y.coef ≠ 0 ∧ y.exps.length = n ∧ (∀ e ∈ y.exps, 0 ≤ e) ∧ y.exps.sum ≠ 0 ∧ ∃ x ∈ xs, y.exps = x.exps := by
    intro y hy
    obtain ⟨t, ht, rfl⟩ := List.mem_map.1 hy
    rw [List.mem_filter] at ht
    obtain ⟨a, _, b, c⟩ := hts.mono t ht.1
    refine ⟨?_, b, c, by simpa [scaled] using ht.2, hfrom t ht.1⟩
    simp only [scaled]
    have : (D : ℚ) ≠ 0 := by exact_mod_cast hD
    exact div_ne_zero a (pow_ne_zero _ this)
  have hynd : (ys.map (·.exps)).Nodup := by
    rw [hys, List.map_map]
    have : ((fun x : Term ℚ => x.exps) ∘ scaled D) = fun x => x.exps := rfl
    rw [this]
    exact List.Nodup.sublist (List.filter_sublist.map _) hts.nodup
  obtain ⟨s, es, os⟩ := insertAll_ok n hn ys (fun y hy => (hysl y hy).2.1)
  have hsc : s.termCount = ys.length := by
    rw [os.count]
    have : nonzero ys = ys := by
      unfold nonzero
      rw [List.filter_eq_self]
      intro x hx
      simpa using (hysl x hx).1
    rw [this]
  have hloop := dilLoop_eq D ts (fun t ht => (hts.mono t ht).2.2.2) 0 0 (⟨0, poly.varCount, none⟩)
  rw [← hys, hvar, show insertAll (⟨0, n, none⟩ : Sum ℚ) ys = some s from es, Option.map_some, zero_add, zero_add] at hloop
  set c := ((ts.filter fun t => t.exps.sum = 0).map (·.coef)).sum with hc
  set k := (ts.filter fun t => t.exps.sum = 0).length with hk
  have hk1 : k ≤ 1 := by
    rw [hk]
    by_contra hgt
    have hz : ∀ t ∈ ts.filter fun t => t.exps.sum = 0, t.exps = List.replicate n 0 := by
      intro t ht
      rw [List.mem_filter] at ht
      obtain ⟨_, _, b, c⟩ := hts.mono t ht.1
      rw [zero_of_sum t.exps c (by simpa using ht.2), b]
    have hnd : ((ts.filter fun t => t.exps.sum = 0).map (·.exps)).Nodup :=
      List.Nodup.sublist (List.filter_sublist.map _) hts.nodup
    match hl : (ts.filter fun t => t.exps.sum = 0) with
    | [] => rw [hl] at hgt; simp at hgt
    | [a] => rw [hl] at hgt; simp at hgt
    | a :: b :: r =>
      rw [hl] at hz hnd
      rw [List.map_cons, List.map_cons, hz a (by simp), hz b (by simp)] at hnd
      simp at hnd
  have hkl : ts.length = ys.length + k := by
    rw [hys, List.length_map, hk]
    have h1 := List.length_eq_length_filter_add (l := ts) (fun t => decide (t.exps.sum = 0))
    rw [h1, Nat.add_comm]
    congr 2
    apply List.filter_congr
    intro t _
    simp
  have hcheck : ¬ (poly.termCount ≠ s.termCount + k ∨ 1 < k) := by
    rw [hcount, hsc, ← hlen, hkl]
    omega
  by_cases hy0 : ys = []
  · refine ⟨poly, ⟨0, n, none⟩, c, [], N, e, fun fuel rounds h1 h2 => ⟨?_, fun h => absurd rfl h⟩, rfl, by simp, by simp, ?_⟩
    · unfold dilatePolynomial
      rw [hvar, d fuel rounds h1 h2, Option.bind_some, hloop, Option.bind_some]
      simp only
      rw [if_neg hcheck, if_pos (by rw [hsc, hy0]; rfl)]
    · intro x
      rw [← hpoly, hsplit, ← hys, hy0]
      simp [formsPoly, monoPoly]
  · have hyp : monoPoly n ys ≠ 0 := monoPoly_ne_zero n ys hy0 (fun y hy => ⟨(hysl y hy).1, (hysl y hy).2.1, (hysl y hy).2.2.1⟩) hynd
    obtain ⟨s', lf, out, N', e', d', f1, f2, f3, f4⟩ := c24_polynomial n hn ys (fun y hy => ⟨(hysl y hy).2.1, (hysl y hy).2.2.1⟩) hyp
    rw [es] at e'
    simp only [Option.some.injEq] at e'
    subst e'
    refine ⟨poly, lf, c, out, max N N', e, fun fuel rounds h1 h2 => ⟨?_, fun _ => ?_⟩, f3, ?_, ?_, ?_⟩
    · unfold dilatePolynomial
      rw [hvar, d fuel rounds ((le_max_left _ _).trans h1) ((le_max_left _ _).trans h2), Option.bind_some, hloop, Option.bind_some]
      simp only
      rw [if_neg hcheck, if_neg (by rw [hsc]; simpa using hy0), os.vars,
        (d' fuel rounds ((le_max_right _ _).trans h1) ((le_max_right _ _).trans h2)).1]
      rfl
    · exact (d' fuel rounds ((le_max_right _ _).trans h1) ((le_max_right _ _).trans h2)).2
    · constructor
      · intro h; exact absurd h f4
      · rintro rfl
        exact absurd f1.symm (by simpa [formsPoly] using hyp)
    · intro t ht
      obtain ⟨_, b, y, hy, hd⟩ := f2 t ht
      obtain ⟨_, _, g2, g3, x, hx, hxe⟩ := hysl y hy
      have : 0 ≤ y.exps.sum := List.sum_nonneg g2
      exact ⟨by omega, b, x, hx, by rw [hd, hxe]⟩
    · intro x
      rw [← hpoly, hsplit, ← hys, f1]

/-! ### sums of powers of linear forms -/

/-- the forms that are re-inserted -/
def scaledForm (D : ℤ) (t : Term ℚ) : Term ℚ := ⟨t.coef / (D : ℚ) ^ t.degree.toNat, t.exps, t.degree⟩

theorem dilFormLoop_eq (D : ℤ) (ts : List (Term ℚ)) (h : ∀ t ∈ ts, 0 ≤ t.degree) : ∀ (c : ℚ) (s : Sum ℚ),
    dilFormLoop D ts c s = (insertAll s ((ts.filter fun t => t.degree ≠ 0).map (scaledForm D))).map fun s' =>
      (s', c + ((ts.filter fun t => t.degree = 0).map (·.coef)).sum) := by
  induction ts with
  | nil => intro c s; simp [dilFormLoop, insertAll]
  | cons t ts ih =>
    intro c s
    have hih := ih fun u hu => h u (by simp [hu])
    have hnn := h t (by simp)
    rw [dilFormLoop]
    by_cases h0 : t.degree = 0
    · rw [if_neg (by simpa using h0), hih]
      simp only [h0, List.filter_cons, ne_eq, not_true, decide_false, if_true, decide_true,
        List.map_cons, List.sum_cons, Bool.false_eq_true, if_false]
      congr 1
      funext s'
      rw [add_assoc]
    · rw [if_pos h0, if_neg (by omega)]
      simp only [h0, List.filter_cons, ne_eq, not_false_eq_true, decide_true, if_true, decide_false, List.map_cons, Bool.false_eq_true,
        if_false]
      have : insertAll s (scaledForm D t :: ((ts.filter fun t => !decide (t.degree = 0)).map (scaledForm D))) =
          (insertSum s (scaledForm D t)).bind fun s' => insertAll s' ((ts.filter fun t => !decide (t.degree = 0)).map (scaledForm D)) := by
        rw [show scaledForm D t :: ((ts.filter fun t => !decide (t.degree = 0)).map (scaledForm D)) =
          [scaledForm D t] ++ ((ts.filter fun t => !decide (t.degree = 0)).map (scaledForm D)) from rfl, insertAll_append]
        rfl
      simp only [decide_not] at this ⊢
      rw [this]
      show (insertSum s (scaledForm D t)).bind _ = _
      cases insertSum s (scaledForm D t) with
      | none => rfl
      | some s' => simp only [Option.bind_some]; rw [hih]; simp only [ne_eq, decide_not]

theorem form_split (n : ℕ) (D : ℤ) (hD : D ≠ 0) (ts : List (Term ℚ)) (x : Fin n → ℝ) :
    polyAt (formsPoly n ts) x = ((((ts.filter fun t => t.degree = 0).map (·.coef)).sum : ℚ) : ℝ) +
      polyAt (formsPoly n ((ts.filter fun t => t.degree ≠ 0).map (scaledForm D))) ((D : ℝ) • x) := by
  have hD' : (D : ℝ) ≠ 0 := by exact_mod_cast hD
  rw [polyAt_formsPoly, polyAt_formsPoly]
  induction ts with
  | nil => simp
  | cons t ts ih =>
    rw [List.map_cons, List.sum_cons, ih]
    by_cases h0 : t.degree = 0
    · simp only [h0, List.filter_cons, ne_eq, not_true, decide_false, if_true, decide_true, List.map_cons, List.sum_cons,
        Bool.false_eq_true, if_false]
      rw [polyAt_linFormPoly, h0]
      simp only [Int.toNat_zero, Nat.factorial_zero, Nat.cast_one, div_one, pow_zero, mul_one]
      push_cast
      ring
    · simp only [h0, List.filter_cons, ne_eq, not_false_eq_true, decide_true, if_true, decide_false, List.map_cons, Bool.false_eq_true,
        if_false, List.sum_cons]
      have : polyAt (linFormPoly n (scaledForm D t)) ((D : ℝ) • x) = polyAt (linFormPoly n t) x := by
        rw [polyAt_linFormPoly, polyAt_linFormPoly]
        simp only [scaledForm, Pi.smul_apply, smul_eq_mul]
        have : (∑ j : Fin n, ((t.exps.getD j 0 : ℤ) : ℝ) * ((D : ℝ) * x j)) = (D : ℝ) * ∑ j : Fin n, ((t.exps.getD j 0 : ℤ) : ℝ) * x j := by
          rw [Finset.mul_sum]
          apply Finset.sum_congr rfl
          intro j _
          ring
        rw [this, mul_pow]
        push_cast
        field_simp
      rw [this]
      ring

/-- **Specification.** Input sums of powers of linear forms: forms in `n` variables, natural powers, some coefficient not zero. -/
structure FormsIn (n : ℕ) (xs : List (Term ℚ)) : Prop where
  ne : ∃ x ∈ xs, x.coef ≠ 0
  form : ∀ x ∈ xs, 0 ≤ x.degree ∧ x.exps.length = n

/-- the dilated sum of powers of linear forms, with the constant split off -/
theorem dilateLinearForms_spec (n : ℕ) (hn : 0 < n) (xs : List (Term ℚ)) (h : FormsIn n xs) (D : ℤ) (hD : D ≠ 0) :
    ∃ forms lf c out N, insertAll (emptySum ℚ n) xs = some forms ∧
      (∀ fuel rounds, N ≤ fuel → N ≤ rounds → dilateLinearForms fuel rounds forms D = some (lf, c) ∧
        (lf.termCount ≠ 0 → drain fuel rounds (begin' lf.trie n) = some out)) ∧
      lf.varCount = n ∧ (lf.termCount = 0 ↔ out = []) ∧
      (∀ t ∈ out, 0 < t.degree ∧ t.exps.length = n ∧ ∃ x ∈ xs, t.degree = x.degree) ∧
      ∀ x : Fin n → ℝ, polyAt (formsPoly n xs) x = c + polyAt (formsPoly n out) ((D : ℝ) • x) := by
  obtain ⟨forms, ts, N, e, o, d, a1, a2, a3⟩ := insertAll_drain n hn xs (fun x hx => (h.form x hx).2) h.ne
  have hfrom : ∀ t ∈ ts, ∃ x ∈ xs, x.key = t.key := delivered_from xs ts (fun t ht => (a1 t ht).1) a2 a3
  have hpoly : formsPoly n ts = formsPoly n xs := formsPoly_congr n ts xs a2
  have hdeg : ∀ t ∈ ts, 0 ≤ t.degree := by
    intro t ht
    obtain ⟨x, hx, hk⟩ := hfrom t ht
    have : x.degree = t.degree := congrArg Prod.fst hk
    have := (h.form x hx).1
    omega
  set ys := (ts.filter fun t => t.degree ≠ 0).map (scaledForm D) with hys
  have hDq : (D : ℚ) ≠ 0 := by exact_mod_cast hD
  have hysl : ∀ y ∈ ys, y.coef ≠ 0 ∧ y.exps.length = n ∧ 0 < y.degree ∧ ∃ x ∈ xs, y.degree = x.degree := by
    intro y hy
    obtain ⟨t, ht, rfl⟩ := List.mem_map.1 hy
    rw [List.mem_filter] at ht
    have h1 := hdeg t ht.1
    have h2 : t.degree ≠ 0 := by simpa using ht.2
    obtain ⟨x, hx, hk⟩ := hfrom t ht.1
    refine ⟨div_ne_zero (a1 t ht.1).1 (pow_ne_zero _ hDq), (a1 t ht.1).2, ?_, x, hx, (congrArg Prod.fst hk).symm⟩
    simp only [scaledForm]
    omega
  have hsorted : ys.Pairwise (fun a b => a.degree = b.degree → List.Lex (· < ·) a.exps b.exps) := by
    rw [hys, List.pairwise_map]
    exact a3.filter _
  obtain ⟨s, es, os⟩ := insertAll_ok n hn ys (fun y hy => (hysl y hy).2.1)
  have hloop := dilFormLoop_eq D ts hdeg 0 (⟨0, forms.varCount, none⟩)
  rw [← hys, o.vars, show insertAll (⟨0, n, none⟩ : Sum ℚ) ys = some s from es, Option.map_some, zero_add] at hloop
  have hsplit := form_split n D hD ts
  rw [← hys] at hsplit
  by_cases hy0 : ys = []
  · refine ⟨forms, s, ((ts.filter fun t => t.degree = 0).map (·.coef)).sum, [], N, e, fun fuel rounds h1 h2 => ⟨?_, fun h => absurd ?_ h⟩, os.vars, ?_, by simp, ?_⟩
    · unfold dilateLinearForms
      rw [o.vars, d fuel rounds h1 h2, Option.bind_some, hloop]
    · rw [os.count, hy0]; rfl
    · rw [os.count, hy0]; simp [nonzero]
    · intro x
      rw [← hpoly, hsplit, hy0]
  · obtain ⟨y0, hy0'⟩ := List.exists_mem_of_ne_nil ys hy0
    obtain ⟨s', out, N', e', _, d', b1, b2, b3⟩ := insertAll_drain n hn ys (fun y hy => (hysl y hy).2.1) ⟨y0, hy0', (hysl y0 hy0').1⟩
    rw [es] at e'
    simp only [Option.some.injEq] at e'
    subst e'
    have hfrom' : ∀ t ∈ out, ∃ x ∈ ys, x.key = t.key := delivered_from ys out (fun t ht => (b1 t ht).1) b2 b3
    refine ⟨forms, s, ((ts.filter fun t => t.degree = 0).map (·.coef)).sum, out, max N N', e, fun fuel rounds h1 h2 => ⟨?_, fun _ => ?_⟩, os.vars, ?_, ?_, ?_⟩
    · unfold dilateLinearForms
      rw [o.vars, d fuel rounds ((le_max_left _ _).trans h1) ((le_max_left _ _).trans h2), Option.bind_some, hloop]
    · exact d' fuel rounds ((le_max_right _ _).trans h1) ((le_max_right _ _).trans h2)
    · rw [os.count]
      have hne : nonzero ys = ys := by
        unfold nonzero
        rw [List.filter_eq_self]
        intro x hx
        simpa using (hysl x hx).1
      rw [hne]
      constructor
      · intro h; exact absurd (List.length_eq_zero_iff.1 h) hy0
      · rintro rfl
        have := coefAt_of_mem ys hsorted y0 hy0'
        rw [← b2] at this
        exact absurd this.symm (hysl y0 hy0').1
    · intro t ht
      obtain ⟨y, hy, hk⟩ := hfrom' t ht
      have hyd : y.degree = t.degree := congrArg Prod.fst hk
      obtain ⟨_, _, g, x, hx, hxd⟩ := hysl y hy
      exact ⟨by omega, (b1 t ht).2, x, hx, by omega⟩
    · intro x
      rw [← hpoly, hsplit, formsPoly_congr n out ys b2]

end Verif.Valuation
