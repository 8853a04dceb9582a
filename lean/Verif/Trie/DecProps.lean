import Verif.Trie.Decompose
import Mathlib.Data.Finsupp.BigOperators
import Mathlib.Data.Finsupp.Single
import Mathlib.Algebra.BigOperators.Fin

/-!
# C24: statements for polynomials of Mathlib
-/

namespace Verif.Trie

open MvPolynomial

/-- **Specification.** The polynomial denoted by one entry `(c, d, l)` of a sum of powers of linear forms:
`c / d! · (l₁x₁ + … + lₙxₙ)^d`. -/
noncomputable def linFormPoly (n : ℕ) (t : Term ℚ) : MvPolynomial (Fin n) ℚ :=
  C (t.coef / (t.degree.toNat.factorial : ℚ)) *
    (∑ j : Fin n, C ((t.exps.getD j 0 : ℤ) : ℚ) * X j) ^ t.degree.toNat

/-- **Specification.** The polynomial denoted by a sum of powers of linear forms. -/
noncomputable def formsPoly (n : ℕ) (l : List (Term ℚ)) : MvPolynomial (Fin n) ℚ :=
  (l.map (linFormPoly n)).sum

/-- **Specification.** The polynomial denoted by a list of monomials. -/
noncomputable def monoPoly (n : ℕ) (l : List (Term ℚ)) : MvPolynomial (Fin n) ℚ :=
  (l.map fun t => C t.coef * ∏ j : Fin n, X j ^ (t.exps.getD j 0).toNat).sum

theorem dot_ofFn {R : Type} [CommRing R] (n : ℕ) (l : List ℤ) (hl : l.length = n) (x : Fin n → R) :
    dot l (List.ofFn x) = ∑ j : Fin n, ((l.getD j 0 : ℤ) : R) * x j := by
  induction n generalizing l with
  | zero =>
    rw [List.length_eq_zero_iff.mp hl]
    simp [dot]
  | succ n ih =>
    obtain ⟨c, cs, rfl⟩ : ∃ c cs, l = c :: cs := by
      cases l with
      | nil => simp at hl
      | cons c cs => exact ⟨c, cs, rfl⟩
    rw [List.ofFn_succ, dot, ih cs (by simpa using hl), Fin.sum_univ_succ]
    simp

theorem powProd_ofFn {R : Type} [CommRing R] (n : ℕ) (l : List ℕ) (hl : l.length = n) (x : Fin n → R) :
    powProd l (List.ofFn x) = ∏ j : Fin n, x j ^ (l.getD j 0) := by
  induction n generalizing l with
  | zero =>
    rw [List.length_eq_zero_iff.mp hl]
    simp [powProd]
  | succ n ih =>
    obtain ⟨c, cs, rfl⟩ : ∃ c cs, l = c :: cs := by
      cases l with
      | nil => simp at hl
      | cons c cs => exact ⟨c, cs, rfl⟩
    rw [List.ofFn_succ, powProd, ih cs (by simpa using hl), Fin.prod_univ_succ]
    simp

theorem formVal_X (n : ℕ) (t : Term ℚ) (hl : t.exps.length = n) :
    formVal (List.ofFn fun j : Fin n => (X j : MvPolynomial (Fin n) ℚ)) t = linFormPoly n t := by
  unfold formVal linFormPoly
  rw [dot_ofFn n t.exps hl]
  congr 2

/-- A term with natural exponents decomposes. -/
theorem decomposeTerm_poly (n : ℕ) (t : Term ℚ) (hl : t.exps.length = n) (h0 : ∀ e ∈ t.exps, 0 ≤ e) :
    ∃ fs, decomposeTerm t = some fs ∧
      (∀ f ∈ fs, f.exps.length = n ∧ f.degree = t.exps.sum) ∧
      formsPoly n fs = C t.coef * ∏ j : Fin n, X j ^ (t.exps.getD j 0).toNat := by
  obtain ⟨c, es, d⟩ := t
  simp only at hl h0
  have hes : es = (es.map Int.toNat).map fun M : ℕ => (M : ℤ) := by
    rw [List.map_map]
    conv_lhs => rw [← List.map_id es]
    apply List.map_congr_left
    intro e he
    simp [h0 e he]
  obtain ⟨fs, e1, e2, e3⟩ := decomposeTerm_val (R := MvPolynomial (Fin n) ℚ) c (es.map Int.toNat) d
    (List.ofFn fun j : Fin n => X j) (by simp [hl])
  rw [← hes] at e1
  have hsum : ((es.map Int.toNat).sum : ℤ) = es.sum := by
    conv_rhs => rw [hes]
    rw [Nat.cast_list_sum]
  refine ⟨fs, e1, fun f hf => ⟨?_, ?_⟩, ?_⟩
  · rw [(e2 f hf).1]; simp [hl]
  · rw [(e2 f hf).2, hsum]
  · unfold formsPoly
    rw [← List.map_congr_left (f := formVal (List.ofFn fun j : Fin n => X j)) (fun f hf => formVal_X n f
      (by rw [(e2 f hf).1]; simp [hl])), e3, powProd_ofFn n _ (by simp [hl])]
    congr 1
    apply Finset.prod_congr rfl
    intro j _
    congr 1
    simp only [List.getD_eq_getElem?_getD, List.getElem?_map]
    cases es[(j : ℕ)]? <;> simp

/-- **C24.** Decomposing the monomial `c·x^M` in `n` variables, for any exponents, coefficient and number
of variables, succeeds and yields entries of degree `|M|` whose sum `Σ cₖ / |M|! · lₖ(x)^|M|` is
`c·x^M` as a polynomial. -/
theorem c24_monomial (n : ℕ) (c : ℚ) (M : Fin n → ℕ) (d : ℤ) :
    ∃ fs, decomposeTerm ⟨c, List.ofFn fun i => (M i : ℤ), d⟩ = some fs ∧
      (∀ f ∈ fs, f.exps.length = n ∧ f.degree = ∑ i, (M i : ℤ)) ∧
      (fs.map fun f => C (f.coef / ((∑ i, M i).factorial : ℚ)) *
        (∑ j : Fin n, C ((f.exps.getD j 0 : ℤ) : ℚ) * X j) ^ (∑ i, M i)).sum =
      monomial (Finsupp.equivFunOnFinite.symm M) c := by
  obtain ⟨fs, e1, e2, e3⟩ := decomposeTerm_poly n ⟨c, List.ofFn fun i => (M i : ℤ), d⟩ (by simp)
    (by simp [List.mem_ofFn])
  have hs : (List.ofFn fun i => (M i : ℤ)).sum = ∑ i, (M i : ℤ) := List.sum_ofFn
  simp only [hs] at e2
  refine ⟨fs, e1, e2, ?_⟩
  have hd : ∀ f ∈ fs, f.degree.toNat = ∑ i, M i := by
    intro f hf
    rw [(e2 f hf).2, ← Nat.cast_sum, Int.toNat_natCast]
  rw [← List.map_congr_left (f := linFormPoly n) (fun f hf => by unfold linFormPoly; rw [hd f hf])]
  unfold formsPoly at e3
  rw [e3]
  simp only [List.getD_eq_getElem?_getD, List.getElem?_ofFn]
  rw [MvPolynomial.monomial_eq]
  congr 1
  rw [Finsupp.prod_fintype _ _ (by simp)]
  apply Finset.prod_congr rfl
  intro j _
  simp

/-! ## Whole polynomials -/

/-- The coefficients of a list, as a finitely supported function. -/
noncomputable def toFun (l : List (Term ℚ)) : Key →₀ ℚ := (l.map fun t => Finsupp.single t.key t.coef).sum

theorem toFun_apply (l : List (Term ℚ)) (k : Key) : toFun l k = coefAt k l := by
  induction l with
  | nil => rfl
  | cons t l ih =>
    rw [coefAt_cons, ← ih]
    show (Finsupp.single t.key t.coef + toFun l) k = _
    rw [Finsupp.add_apply, Finsupp.single_apply]
    rfl

theorem toFun_sum {R : Type} [CommRing R] [Algebra ℚ R] (F : Key → R) (l : List (Term ℚ)) :
    (toFun l).sum (fun k c => algebraMap ℚ R c * F k) =
      (l.map fun t => algebraMap ℚ R t.coef * F t.key).sum := by
  classical
  induction l with
  | nil => rfl
  | cons t l ih =>
    rw [List.map_cons, List.sum_cons, ← ih]
    show (Finsupp.single t.key t.coef + toFun l).sum _ = _
    rw [Finsupp.sum_add_index' (by simp) (by intro k a b; rw [map_add, add_mul]),
      Finsupp.sum_single_index (by simp)]

/-- A sum that is linear in the coefficients depends only on the coefficients. -/
theorem sum_congr_coefAt {R : Type} [CommRing R] [Algebra ℚ R] (F : Key → R) (l l' : List (Term ℚ))
    (h : ∀ k, coefAt k l = coefAt k l') :
    (l.map fun t => algebraMap ℚ R t.coef * F t.key).sum =
      (l'.map fun t => algebraMap ℚ R t.coef * F t.key).sum := by
  rw [← toFun_sum, ← toFun_sum]
  congr 1
  ext k
  rw [toFun_apply, toFun_apply, h]

theorem formsPoly_congr (n : ℕ) (l l' : List (Term ℚ)) (h : ∀ k, coefAt k l = coefAt k l') :
    formsPoly n l = formsPoly n l' := by
  have := sum_congr_coefAt (R := MvPolynomial (Fin n) ℚ)
    (fun k : Key => C (1 / (k.1.toNat.factorial : ℚ)) *
      (∑ j : Fin n, C ((k.2.getD j 0 : ℤ) : ℚ) * X j) ^ k.1.toNat) l l' h
  unfold formsPoly
  have hc : ∀ l : List (Term ℚ), l.map (linFormPoly n) = l.map fun t =>
      algebraMap ℚ (MvPolynomial (Fin n) ℚ) t.coef * (C (1 / (t.key.1.toNat.factorial : ℚ)) *
      (∑ j : Fin n, C ((t.key.2.getD j 0 : ℤ) : ℚ) * X j) ^ t.key.1.toNat) := by
    intro l
    apply List.map_congr_left
    intro t _
    unfold linFormPoly
    rw [div_eq_mul_one_div, map_mul, mul_assoc]
    rfl
  rw [hc, hc]
  exact this

theorem monoPoly_congr (n : ℕ) (l l' : List (Term ℚ)) (h : ∀ k, coefAt k l = coefAt k l') :
    monoPoly n l = monoPoly n l' :=
  sum_congr_coefAt (R := MvPolynomial (Fin n) ℚ)
    (fun k : Key => ∏ j : Fin n, X j ^ (k.2.getD j 0).toNat) l l' h

theorem formsPoly_append (n : ℕ) (l l' : List (Term ℚ)) :
    formsPoly n (l ++ l') = formsPoly n l + formsPoly n l' := by
  simp [formsPoly]

theorem insertAll_append {T : Type} [AddCommMonoid T] [DecidableEq T] (s : Sum T) (a b : List (Term T)) :
    insertAll s (a ++ b) = (insertAll s a).bind fun s => insertAll s b := by
  unfold insertAll
  rw [List.foldl_append]
  cases List.foldl (fun acc x => acc.bind fun s => insertSum s x) (some s) a with
  | some s' => rfl
  | none =>
    have : ∀ b : List (Term T), List.foldl (fun (acc : Option (Sum T)) x =>
        acc.bind fun s => insertSum s x) none b = none := by
      intro b
      induction b with
      | nil => rfl
      | cons x b ih => exact ih
    rw [this]; rfl

/-- The loop over the terms inserts linear forms with the same sum. -/
theorem decomposeLoop_spec (n : ℕ) (ts : List (Term ℚ)) (h : ∀ t ∈ ts, t.exps.length = n ∧
    ∀ e ∈ t.exps, 0 ≤ e) :
    ∃ fs, (∀ s, decomposeLoop ts s = insertAll s fs) ∧
      (∀ f ∈ fs, f.exps.length = n ∧ ∃ t ∈ ts, f.degree = t.exps.sum) ∧
      formsPoly n fs = monoPoly n ts := by
  induction ts with
  | nil => exact ⟨[], fun s => rfl, by simp, rfl⟩
  | cons u us ihu =>
    obtain ⟨fs, e1, e2, e3⟩ := decomposeTerm_poly n u (h u (by simp)).1 (h u (by simp)).2
    obtain ⟨gs, g1, g2, g3⟩ := ihu fun v hv => h v (by simp [hv])
    refine ⟨fs ++ gs, fun s => ?_, ?_, ?_⟩
    · rw [decomposeLoop, e1, insertAll_append]
      simp only
      cases insertAll s fs with
      | none => rfl
      | some s' => exact g1 s'
    · intro f hf
      rcases List.mem_append.mp hf with hf | hf
      · exact ⟨(e2 f hf).1, u, by simp, (e2 f hf).2⟩
      · obtain ⟨h1, t, ht, h2⟩ := g2 f hf
        exact ⟨h1, t, by simp [ht], h2⟩
    · rw [formsPoly_append, e3, g3]; rfl

theorem insertAll_drain (n : ℕ) (hn : 0 < n) (xs : List (Term ℚ))
    (hx : ∀ x ∈ xs, x.exps.length = n) (hne : ∃ x ∈ xs, x.coef ≠ 0) :
    ∃ s out N, insertAll (emptySum ℚ n) xs = some s ∧ SumOk n s xs ∧ (∀ fuel rounds, N ≤ fuel → N ≤ rounds →
      drain fuel rounds (begin' s.trie n) = some out) ∧ (∀ t ∈ out, t.coef ≠ 0 ∧ t.exps.length = n) ∧
      (∀ k, coefAt k out = coefAt k xs) ∧
      out.Pairwise (fun a b => a.degree = b.degree → List.Lex (· < ·) a.exps b.exps) := by
  obtain ⟨s, e, out, ⟨N, hN⟩, a1, a2, a3⟩ := c21_store_is_map n hn xs hx hne
  obtain ⟨s', e', o⟩ := insertAll_ok n hn xs hx
  rw [e] at e'
  simp only [Option.some.injEq] at e'
  subst e'
  exact ⟨s, out, N, e, o, hN, a1, a2, a3⟩

/-- a delivered term stems from an inserted one -/
theorem delivered_from (xs out : List (Term ℚ)) (a1 : ∀ t ∈ out, t.coef ≠ 0)
    (a2 : ∀ k, coefAt k out = coefAt k xs)
    (a3 : out.Pairwise (fun a b => a.degree = b.degree → List.Lex (· < ·) a.exps b.exps)) (t : Term ℚ)
    (ht : t ∈ out) : ∃ x ∈ xs, x.key = t.key := by
  by_contra hno
  push Not at hno
  have h1 := coefAt_of_mem out a3 t ht
  rw [a2, coefAt_of_not_mem _ _ hno] at h1
  exact a1 t ht h1.symm

theorem exists_nonzero_of_poly (n : ℕ) (l : List (Term ℚ)) (h : formsPoly n l ≠ 0) :
    ∃ x ∈ l, x.coef ≠ 0 := by
  by_contra hno
  push Not at hno
  apply h
  unfold formsPoly
  apply List.sum_eq_zero
  intro p hp
  rw [List.mem_map] at hp
  obtain ⟨t, ht, rfl⟩ := hp
  simp [linFormPoly, hno t ht]

/-- **C24 for whole polynomials.** Store any non-zero polynomial with natural exponents in `n ≥ 1`
variables by inserting terms, decompose the store, and iterate over the resulting sum of powers of
linear forms: no access goes wrong, and the entries delivered sum up to the polynomial. -/
theorem c24_polynomial (n : ℕ) (hn : 0 < n) (xs : List (Term ℚ))
    (hx : ∀ x ∈ xs, x.exps.length = n ∧ ∀ e ∈ x.exps, 0 ≤ e) (hp : monoPoly n xs ≠ 0) :
    ∃ s lf out N, insertAll (emptySum ℚ n) xs = some s ∧
      (∀ fuel rounds, N ≤ fuel → N ≤ rounds →
        decompose fuel rounds n s.trie = some lf ∧
        drain fuel rounds (begin' lf.trie n) = some out) ∧
      formsPoly n out = monoPoly n xs ∧
      (∀ t ∈ out, t.coef ≠ 0 ∧ t.exps.length = n ∧ ∃ x ∈ xs, t.degree = x.exps.sum) ∧
      lf.varCount = n ∧ lf.termCount ≠ 0 := by
  have hne : ∃ x ∈ xs, x.coef ≠ 0 := by
    by_contra hno
    push Not at hno
    apply hp
    unfold monoPoly
    apply List.sum_eq_zero
    intro p hp
    rw [List.mem_map] at hp
    obtain ⟨t, ht, rfl⟩ := hp
    simp [hno t ht]
  obtain ⟨s, ts, N, e, _, d, a1, a2, a3⟩ := insertAll_drain n hn xs (fun x h => (hx x h).1) hne
  have hpoly : monoPoly n ts = monoPoly n xs := monoPoly_congr n ts xs a2
  -- delivered terms have natural exponents
  have hfrom : ∀ t ∈ ts, ∃ x ∈ xs, x.exps = t.exps := by
    intro t ht
    obtain ⟨x, hx', hk⟩ := delivered_from xs ts (fun t h => (a1 t h).1) a2 a3 t ht
    exact ⟨x, hx', congrArg Prod.snd hk⟩
  have hts : ∀ t ∈ ts, t.exps.length = n ∧ ∀ e ∈ t.exps, 0 ≤ e := by
    intro t ht
    obtain ⟨x, hx', hk⟩ := hfrom t ht
    refine ⟨(a1 t ht).2, ?_⟩
    rw [← hk]
    exact (hx x hx').2
  cases ts with
  | nil => exact absurd hpoly.symm (by simpa [monoPoly] using hp)
  | cons t ts =>
    obtain ⟨fs, f1, f2, f3⟩ := decomposeLoop_spec n (t :: ts) hts
    have hfn : ∃ x ∈ fs, x.coef ≠ 0 := exists_nonzero_of_poly n fs (by rw [f3, hpoly]; exact hp)
    obtain ⟨lf, out, N', e', o', d', b1, b2, b3⟩ := insertAll_drain n hn fs (fun f hf => (f2 f hf).1) hfn
    refine ⟨s, lf, out, max N N', e, fun fuel rounds h1 h2 => ⟨?_, ?_⟩, ?_, ?_, o'.vars, ?_⟩
    · unfold decompose
      rw [d fuel rounds ((le_max_left _ _).trans h1) ((le_max_left _ _).trans h2)]
      show decomposeLoop (t :: ts) (emptySum ℚ n) = some lf
      rw [f1, e']
    · exact d' fuel rounds ((le_max_right _ _).trans h1) ((le_max_right _ _).trans h2)
    · rw [formsPoly_congr n out fs b2, f3, hpoly]
    · intro u hu
      refine ⟨(b1 u hu).1, (b1 u hu).2, ?_⟩
      obtain ⟨f, hf, hk⟩ := delivered_from fs out (fun t h => (b1 t h).1) b2 b3 u hu
      obtain ⟨_, v, hv, hd⟩ := f2 f hf
      obtain ⟨x, hx', hxe⟩ := hfrom v hv
      exact ⟨x, hx', by rw [hxe, ← hd]; exact (congrArg Prod.fst hk).symm⟩
    · rw [o'.count]
      obtain ⟨x, hx', h0⟩ := hfn
      have : x ∈ nonzero fs := by simp [nonzero, hx', h0]
      exact (List.length_pos_of_mem this).ne'

/-- **A defect.** If the inserted terms cancel, the decomposition dereferences a null pointer. -/
theorem c24_cancelled_polynomial_crashes :
    ∃ s, insertAll (emptySum ℚ 1) [⟨1, [2], -1⟩, ⟨-1, [2], -1⟩] = some s ∧
      decompose 9 9 1 s.trie = none := by
  refine ⟨_, rfl, ?_⟩
  decide +kernel

/-- Non-vacuous: x²y is a sum of five cubes of linear forms. -/
example : (decomposeTerm ⟨1, [2, 1], -1⟩).map (List.map fun t => (t.coef, t.exps, t.degree)) =
    some [(2, [1, 0], 3), (-8, [1, 0], 3), (1, [0, 1], 3), (-2, [1, 1], 3), (1, [2, 1], 3)] := by
  decide +kernel

end Verif.Trie
