import Verif.Products.Simplex
import Verif.Valuation.Props

/-! Loading and dilating products of powers of linear forms. -/

namespace Verif.Products

open MeasureTheory Set Verif.Trie Verif.Measure Verif.Valuation

/-- **Specification.** A product as the user writes it: a coefficient and a list of powers (exponent, coefficients of the linear form). -/
abbrev Prod' := ℚ × List (ℤ × List ℤ)

/-- **Specification.** The polynomial `c · ∏ ⟨l, x⟩^d`. -/
noncomputable def productPoly (n : ℕ) (p : Prod') : MvPolynomial (Fin n) ℚ :=
  MvPolynomial.C p.1 * (p.2.map fun f => (∑ j : Fin n, MvPolynomial.C ((f.2.getD j 0 : ℤ) : ℚ) * MvPolynomial.X j) ^ f.1.toNat).prod

/-- **Specification.** A product in `n` variables with a non-zero coefficient and pairwise different factors of positive degree. -/
structure Proper (n : ℕ) (p : Prod') : Prop where
  coef : p.1 ≠ 0
  ne : p.2 ≠ []
  factor : ∀ f ∈ p.2, 0 < f.1 ∧ f.2.length = n
  nodup : p.2.Nodup

/-- **Specification.** A non-zero constant, written as a single factor of degree zero. -/
def Constant (n : ℕ) (p : Prod') : Prop := p.1 ≠ 0 ∧ ∃ l : List ℤ, l.length = n ∧ p.2 = [(0, l)]

/-! ### stored factors -/

theorem coefAt_of_keys (l : List (Term ℚ)) (hd : (l.map Term.key).Nodup) (t : Term ℚ) (ht : t ∈ l) : coefAt t.key l = t.coef := by
  induction l with
  | nil => simp at ht
  | cons x l ih =>
    rw [List.map_cons, List.nodup_cons] at hd
    have hne : ∀ b ∈ l, x.key ≠ b.key := by
      intro b hb hk
      apply hd.1
      rw [List.mem_map]
      exact ⟨b, hb, hk.symm⟩
    rw [coefAt_cons]
    rcases List.mem_cons.mp ht with rfl | ht
    · rw [one, if_pos rfl, coefAt_of_not_mem _ _ (fun b hb h => hne b hb h.symm), add_zero]
    · rw [one, if_neg (hne t ht), zero_add]
      exact ih hd.2 ht

theorem term_ext (s t : Term ℚ) (hk : s.key = t.key) (hc : s.coef = t.coef) : s = t := by
  obtain ⟨c, e, d⟩ := s
  obtain ⟨c', e', d'⟩ := t
  simp only [Term.key, Prod.mk.injEq] at hk
  simp only at hc
  rw [hk.1, hk.2, hc]

/-- the store delivers different factors as they are, in another order -/
theorem delivered_perm (xs out : List (Term ℚ)) (hx : ∀ x ∈ xs, x.coef ≠ 0) (hd : (xs.map Term.key).Nodup) (a1 : ∀ t ∈ out, t.coef ≠ 0)
    (a2 : ∀ k, coefAt k out = coefAt k xs)
    (a3 : out.Pairwise (fun a b => a.degree = b.degree → List.Lex (· < ·) a.exps b.exps)) :
    out.Perm xs := by
  have hdo : (out.map Term.key).Nodup := by
    rw [List.Nodup, List.pairwise_map]
    refine a3.imp ?_
    intro a b hab he
    have h1 : a.degree = b.degree := congrArg Prod.fst he
    have h2 : a.exps = b.exps := congrArg Prod.snd he
    have := hab h1
    rw [h2] at this
    exact lex_irrefl this
  rw [List.perm_ext_iff_of_nodup (List.Nodup.of_map _ hdo) (List.Nodup.of_map _ hd)]
  intro t
  constructor
  · intro ht
    obtain ⟨x, hxm, hk⟩ := delivered_from xs out a1 a2 a3 t ht
    have h1 := coefAt_of_keys out hdo t ht
    have h2 := coefAt_of_keys xs hd x hxm
    rw [a2, ← hk, h2] at h1
    rw [← term_ext x t hk h1]
    exact hxm
  · intro hxm
    have h2 := coefAt_of_keys xs hd t hxm
    by_contra hno
    have : ∀ u ∈ out, u.key ≠ t.key := by
      intro u hu hk
      have h1 := coefAt_of_keys out hdo u hu
      rw [a2, hk, h2] at h1
      exact hno (term_ext u t hk h1.symm ▸ hu)
    rw [← a2, coefAt_of_not_mem _ _ this] at h2
    exact hx t hxm h2.symm

/-- storing and iterating over different factors -/
theorem stored_factors (n : ℕ) (hn : 0 < n) (xs : List (Term ℚ)) (hne : xs ≠ []) (hx : ∀ x ∈ xs, x.coef ≠ 0 ∧ x.exps.length = n)
    (hd : (xs.map Term.key).Nodup) :
    ∃ s out N, insertAll (emptySum ℚ n) xs = some s ∧ s.varCount = n ∧ s.termCount = xs.length ∧
      (∀ fuel rounds, N ≤ fuel → N ≤ rounds → drain fuel rounds (begin' s.trie n) = some out) ∧ out.Perm xs := by
  obtain ⟨x0, hx0⟩ := List.exists_mem_of_ne_nil xs hne
  obtain ⟨s, out, N, e, o, d, a1, a2, a3⟩ := insertAll_drain n hn xs (fun x h => (hx x h).2) ⟨x0, hx0, (hx x0 hx0).1⟩
  refine ⟨s, out, N, e, o.vars, ?_, d, delivered_perm xs out (fun x h => (hx x h).1) hd (fun t ht => (a1 t ht).1) a2 a3⟩
  rw [o.count]
  have : nonzero xs = xs := by
    unfold nonzero
    rw [List.filter_eq_self]
    intro x h
    simpa using (hx x h).1
  rw [this]

theorem prodPoly_perm (n : ℕ) {xs ys : List (Term ℚ)} (h : xs.Perm ys) : prodPoly n xs = prodPoly n ys := (h.map _).prod_eq

/-! ### loading -/

theorem loadTerms_coef (d : ℤ) (c : ℚ) : (List.range (d.toNat - 1)).foldl (fun (a : ℚ) (i : ℕ) => a * ((i + 2 : ℕ) : ℚ)) c =
    c * (d.toNat.factorial : ℚ) := by
  have : ∀ m, (List.range m).foldl (fun (a : ℚ) (i : ℕ) => a * ((i + 2 : ℕ) : ℚ)) c = c * ((m + 1).factorial : ℚ) := by
    intro m
    induction m with
    | zero => simp
    | succ m ih =>
      rw [List.range_succ, List.foldl_append, ih, List.foldl_cons, List.foldl_nil, Nat.factorial_succ (m + 1)]
      push_cast; ring
  rw [this]
  cases hk : d.toNat with
  | zero => simp
  | succ k => simp

theorem loadTerms_keys (c : ℚ) (fs : List (ℤ × List ℤ)) : (loadTerms c fs).map Term.key = fs := by
  induction fs generalizing c with
  | nil => rfl
  | cons f fs ih => obtain ⟨d, l⟩ := f; rw [loadTerms, List.map_cons, ih]; rfl

theorem loadTerms_mem (c : ℚ) (hc : c ≠ 0) (fs : List (ℤ × List ℤ)) : ∀ t ∈ loadTerms c fs, t.coef ≠ 0 ∧ (t.degree, t.exps) ∈ fs := by
  induction fs generalizing c with
  | nil => simp [loadTerms]
  | cons f fs ih =>
    obtain ⟨d, l⟩ := f
    intro t ht
    rw [loadTerms, loadTerms_coef] at ht
    rcases List.mem_cons.1 ht with rfl | ht
    · refine ⟨mul_ne_zero hc ?_, by simp⟩
      exact_mod_cast Nat.factorial_ne_zero _
    · obtain ⟨a, b⟩ := ih 1 one_ne_zero t ht
      exact ⟨a, List.mem_cons_of_mem _ b⟩

theorem loadTerms_poly (n : ℕ) (c : ℚ) (fs : List (ℤ × List ℤ)) (hne : fs ≠ []) : prodPoly n (loadTerms c fs) = productPoly n (c, fs) := by
  have hone : ∀ (c : ℚ) (f : ℤ × List ℤ), linFormPoly n ⟨c * (f.1.toNat.factorial : ℚ), f.2, f.1⟩ =
      MvPolynomial.C c * (∑ j : Fin n, MvPolynomial.C ((f.2.getD j 0 : ℤ) : ℚ) * MvPolynomial.X j) ^ f.1.toNat := by
    intro c f
    unfold linFormPoly
    simp only
    rw [mul_div_assoc, div_self (by exact_mod_cast Nat.factorial_ne_zero _), mul_one]
  have hrest : ∀ fs : List (ℤ × List ℤ), prodPoly n (loadTerms 1 fs) =
      (fs.map fun f => (∑ j : Fin n, MvPolynomial.C ((f.2.getD j 0 : ℤ) : ℚ) * MvPolynomial.X j) ^ f.1.toNat).prod := by
    intro fs
    induction fs with
    | nil => simp [loadTerms, prodPoly]
    | cons f fs ih =>
      rw [List.map_cons, List.prod_cons, ← ih, loadTerms, loadTerms_coef]
      unfold prodPoly
      rw [List.map_cons, List.prod_cons, hone]
      simp
  obtain ⟨f, fs, rfl⟩ : ∃ f fs', fs = f :: fs' := by
    cases fs with
    | nil => exact absurd rfl hne
    | cons f fs => exact ⟨f, fs, rfl⟩
  unfold productPoly
  rw [loadTerms, loadTerms_coef]
  unfold prodPoly
  rw [List.map_cons, List.prod_cons, hone, List.map_cons, List.prod_cons, ← hrest fs, mul_assoc]
  rfl

/-! ### dilation -/

/-- the product for the dilated polytope -/
theorem scaled_product (n : ℕ) (D : ℤ) (hD : D ≠ 0) (ts : List (Term ℚ)) (x : Fin n → ℝ) :
    polyAt (prodPoly n (ts.map (scaledForm D))) x = polyAt (prodPoly n ts) x / (D : ℝ) ^ (ts.map fun t => t.degree.toNat).sum := by
  have hD' : (D : ℝ) ≠ 0 := by exact_mod_cast hD
  rw [polyAt_prod, polyAt_prod]
  induction ts with
  | nil => simp
  | cons t ts ih =>
    simp only [List.map_cons, List.prod_cons, List.sum_cons]
    rw [ih, polyAt_linFormPoly, polyAt_linFormPoly, pow_add]
    simp only [scaledForm]
    push_cast
    field_simp

/-- a product of powers is homogeneous -/
theorem product_smul (n : ℕ) (ts : List (Term ℚ)) (a : ℝ) (x : Fin n → ℝ) :
    polyAt (prodPoly n ts) (a • x) = a ^ (ts.map fun t => t.degree.toNat).sum * polyAt (prodPoly n ts) x := by
  rw [polyAt_prod, polyAt_prod]
  induction ts with
  | nil => simp
  | cons t ts ih =>
    simp only [List.map_cons, List.prod_cons, List.sum_cons]
    rw [ih, polyAt_linFormPoly, polyAt_linFormPoly, pow_add]
    have : (∑ j : Fin n, ((t.exps.getD j 0 : ℤ) : ℝ) * (a • x) j) = a * ∑ j : Fin n, ((t.exps.getD j 0 : ℤ) : ℝ) * x j := by
      rw [Finset.mul_sum]
      apply Finset.sum_congr rfl
      intro j _
      simp only [Pi.smul_apply, smul_eq_mul]
      ring
    rw [this, mul_pow]
    ring

/-- dilation of one proper product -/
theorem dilate_proper (n : ℕ) (hn : 0 < n) (p : Prod') (hp : Proper n p) (D : ℤ) (hD : D ≠ 0) :
    ∃ s lf out N, loadProduct n p.1 p.2 = some s ∧ lf.varCount = n ∧ lf.termCount = out.length ∧ out ≠ [] ∧
      (∀ t ∈ out, t.exps.length = n ∧ t.coef ≠ 0) ∧
      (∀ fuel rounds, N ≤ fuel → N ≤ rounds → dilateLinearForms fuel rounds s D = some (lf, 0) ∧
        drain fuel rounds (begin' lf.trie n) = some out) ∧
      (∃ e : ℕ, (∀ x, polyAt (prodPoly n out) x = polyAt (productPoly n p) x / (D : ℝ) ^ e) ∧
        ∀ (a : ℝ) x, polyAt (productPoly n p) (a • x) = a ^ e * polyAt (productPoly n p) x) := by
  obtain ⟨c, fs⟩ := p
  have hm := loadTerms_mem c hp.coef fs
  have hne : loadTerms c fs ≠ [] := by
    intro h
    have := loadTerms_keys c fs
    rw [h] at this
    exact hp.ne this.symm
  have hDq : (D : ℚ) ≠ 0 := by exact_mod_cast hD
  obtain ⟨s, ts, N, e, o1, o2, d, hperm⟩ := stored_factors n hn (loadTerms c fs) hne
    (fun t ht => ⟨(hm t ht).1, (hp.factor _ (hm t ht).2).2⟩) (by rw [loadTerms_keys]; exact hp.nodup)
  have hts : ∀ t ∈ ts, t.coef ≠ 0 ∧ 0 < t.degree ∧ t.exps.length = n := by
    intro t ht
    obtain ⟨a, b⟩ := hm t (hperm.mem_iff.1 ht)
    exact ⟨a, hp.factor _ b⟩
  set ys := ts.map (scaledForm D) with hys
  have hyne : ys ≠ [] := by
    intro h
    rw [hys, List.map_eq_nil_iff] at h
    rw [h] at hperm
    exact hne (List.nil_perm.1 hperm)
  have hykeys : ys.map Term.key = ts.map Term.key := by
    rw [hys, List.map_map]; rfl
  obtain ⟨lf, out, N', e', o1', o2', d', hperm'⟩ := stored_factors n hn ys hyne
    (by
      intro y hy
      obtain ⟨t, ht, rfl⟩ := List.mem_map.1 hy
      exact ⟨div_ne_zero (hts t ht).1 (pow_ne_zero _ hDq), (hts t ht).2.2⟩)
    (by rw [hykeys, (hperm.map Term.key).nodup_iff, loadTerms_keys]; exact hp.nodup)
  have hpoly : prodPoly n ts = productPoly n (c, fs) := by rw [prodPoly_perm n hperm, loadTerms_poly n c fs hp.ne]
  refine ⟨s, lf, out, max N N', e, o1', by rw [o2', hperm'.length_eq], ?_, ?_, fun fuel rounds h1 h2 => ⟨?_, d' fuel rounds (by omega) (by omega)⟩,
    (ts.map fun t => t.degree.toNat).sum, fun x => ?_, fun a x => ?_⟩
  · rintro rfl
    exact hyne (List.nil_perm.1 hperm')
  · intro t ht
    obtain ⟨u, hu, rfl⟩ := List.mem_map.1 (hperm'.mem_iff.1 ht)
    exact ⟨(hts u hu).2.2, div_ne_zero (hts u hu).1 (pow_ne_zero _ hDq)⟩
  · unfold dilateLinearForms
    rw [o1, d fuel rounds (by omega) (by omega), Option.bind_some, dilFormLoop_eq D ts (fun t ht => (hts t ht).2.1.le)]
    have hf1 : (ts.filter fun t => t.degree ≠ 0) = ts := by
      rw [List.filter_eq_self]
      intro t ht
      have := (hts t ht).2.1
      simp only [ne_eq, decide_not, Bool.not_eq_eq_eq_not, Bool.not_true, decide_eq_false_iff_not]
      omega
    have hf2 : (ts.filter fun t => t.degree = 0) = [] := by
      rw [List.filter_eq_nil_iff]
      intro t ht
      have := (hts t ht).2.1
      simp only [decide_eq_true_eq]
      omega
    rw [hf1, hf2, ← hys, show insertAll (⟨0, n, none⟩ : Sum ℚ) ys = some lf from e', Option.map_some]
    simp
  · rw [prodPoly_perm n hperm', hys, scaled_product n D hD, hpoly]
  · rw [← hpoly]
    exact product_smul n ts a x

/-- dilation of a constant -/
theorem dilate_constant (n : ℕ) (hn : 0 < n) (p : Prod') (hp : Constant n p) (D : ℤ) :
    ∃ s N, loadProduct n p.1 p.2 = some s ∧
      (∀ fuel rounds, N ≤ fuel → N ≤ rounds → dilateLinearForms fuel rounds s D = some (⟨0, n, none⟩, p.1)) ∧
      ∀ x, polyAt (productPoly n p) x = p.1 := by
  obtain ⟨c, fs⟩ := p
  obtain ⟨hc, l, hl, rfl⟩ := hp
  obtain ⟨s, ts, N, e, o1, o2, d, hperm⟩ := stored_factors n hn (loadTerms c [(0, l)]) (by simp [loadTerms])
    (fun t ht => ⟨(loadTerms_mem c hc _ t ht).1, by
      have := (loadTerms_mem c hc _ t ht).2
      rw [List.mem_singleton, Prod.mk.injEq] at this
      rw [this.2]; exact hl⟩) (by rw [loadTerms_keys]; simp)
  have hts : ts = [⟨c, l, 0⟩] := by
    have : loadTerms c [(0, l)] = [⟨c, l, 0⟩] := by simp [loadTerms]
    rw [this] at hperm
    exact List.perm_singleton.1 hperm
  refine ⟨s, N, e, fun fuel rounds h1 h2 => ?_, fun x => ?_⟩
  · unfold dilateLinearForms
    rw [o1, d fuel rounds h1 h2, Option.bind_some, hts]
    simp [dilFormLoop]
  · simp [productPoly, polyAt]

end Verif.Products
