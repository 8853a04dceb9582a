import Verif.Trie.MulModel
import Verif.Trie.Props
import Mathlib.Algebra.MonoidAlgebra.Defs
import Mathlib.Data.Finsupp.Basic

/-!
# C23: windowed multiplication of stored polynomials; C45: histories of polynomial objects
-/

namespace Verif.Trie

open AddMonoidAlgebra

variable {T : Type} [CommSemiring T] [DecidableEq T]

/-! ## Specification -/

/-- Laurent polynomials in `n` variables (`AddMonoidAlgebra` of Mathlib). -/
abbrev Poly (T : Type) [CommSemiring T] (n : ℕ) := AddMonoidAlgebra T (Fin n → ℤ)

/-- The exponent vector of a list of exponents. -/
def vecOf (n : ℕ) (es : List ℤ) : Fin n → ℤ := fun i => es.getD i 0

/-- **Specification.** The polynomial denoted by a list of terms. -/
noncomputable def toPoly (n : ℕ) (l : List (Term T)) : Poly T n :=
  (l.map fun t => single (vecOf n t.exps) t.coef).sum

/-- The window. -/
def InWindow {n : ℕ} (mn mx : List ℤ) (e : Fin n → ℤ) : Prop :=
  ∀ i : Fin n, mn.getD i 0 ≤ e i ∧ e i ≤ mx.getD i 0

open Classical in
/-- **Specification.** The terms of a polynomial within the window. -/
noncomputable def trunc {n : ℕ} (mn mx : List ℤ) (p : Poly T n) : Poly T n :=
  .ofCoeff (p.coeff.filter (InWindow mn mx))

/-- Monomial terms: degree -1 and `n` exponents. -/
def Mono (n : ℕ) (l : List (Term T)) : Prop := ∀ t ∈ l, t.degree = -1 ∧ t.exps.length = n

/-! ## Coefficients -/

/-- The coefficients of a polynomial, by keys. -/
noncomputable def coefP (n : ℕ) (p : Poly T n) (k : Key) : T :=
  if k.1 = -1 ∧ k.2.length = n then p.coeff (vecOf n k.2) else 0

omit [DecidableEq T] in
theorem vecOf_injective {n : ℕ} {a b : List ℤ} (ha : a.length = n) (hb : b.length = n)
    (h : vecOf n a = vecOf n b) : a = b := by
  apply List.ext_getElem (ha.trans hb.symm)
  intro i h1 h2
  have := congrFun h ⟨i, by omega⟩
  unfold vecOf at this
  simp only [List.getD_eq_getElem?_getD] at this
  rw [List.getElem?_eq_getElem h1, List.getElem?_eq_getElem h2] at this
  exact this

omit [DecidableEq T] in
theorem vecOf_ofFn {n : ℕ} (e : Fin n → ℤ) : vecOf n (List.ofFn e) = e := by
  funext i
  simp [vecOf]

omit [DecidableEq T] in
theorem coefP_zero (n : ℕ) (k : Key) : coefP n (0 : Poly T n) k = 0 := by
  unfold coefP; split <;> simp

omit [DecidableEq T] in
theorem coefP_add (n : ℕ) (p q : Poly T n) (k : Key) :
    coefP n (p + q) k = coefP n p k + coefP n q k := by
  unfold coefP; split <;> simp

omit [DecidableEq T] in
theorem coefP_single (n : ℕ) (es : List ℤ) (hl : es.length = n) (c : T) (k : Key) :
    coefP n (single (vecOf n es) c) k = one (-1, es) c k := by
  classical
  obtain ⟨d, fs⟩ := k
  unfold coefP one
  by_cases h : ((-1 : ℤ), es) = (d, fs)
  · simp only [Prod.mk.injEq] at h
    obtain ⟨rfl, rfl⟩ := h
    rw [if_pos ⟨rfl, hl⟩, if_pos rfl, coeff_single, Finsupp.single_eq_same]
  · rw [if_neg h]
    by_cases h2 : d = -1 ∧ fs.length = n
    · rw [if_pos h2, coeff_single, Finsupp.single_eq_of_ne]
      intro hv
      apply h
      simp only [Prod.mk.injEq]
      exact ⟨h2.1.symm, (vecOf_injective h2.2 hl hv).symm⟩
    · rw [if_neg h2]

omit [DecidableEq T] in
theorem toPoly_cons (n : ℕ) (t : Term T) (l : List (Term T)) :
    toPoly n (t :: l) = single (vecOf n t.exps) t.coef + toPoly n l := rfl

omit [DecidableEq T] in
theorem toPoly_append (n : ℕ) (l l' : List (Term T)) :
    toPoly n (l ++ l') = toPoly n l + toPoly n l' := by
  simp [toPoly]

omit [DecidableEq T] in
theorem coefAt_mono (n : ℕ) (l : List (Term T)) (h : Mono n l) (k : Key) :
    coefAt k l = coefP n (toPoly n l) k := by
  induction l with
  | nil => exact (coefP_zero n k).symm
  | cons t l ih =>
    rw [coefAt_cons, toPoly_cons, coefP_add, ih fun u hu => h u (by simp [hu]),
      coefP_single n t.exps (h t (by simp)).2]
    congr 2
    unfold Term.key
    rw [(h t (by simp)).1]

omit [DecidableEq T] in
theorem coefP_injective (n : ℕ) (p q : Poly T n) (h : ∀ k, coefP n p k = coefP n q k) : p = q := by
  ext e
  have := h (-1, List.ofFn e)
  unfold coefP at this
  simpa [vecOf_ofFn] using this

open Classical in
omit [DecidableEq T] in
theorem trunc_add {n : ℕ} (mn mx : List ℤ) (p q : Poly T n) :
    trunc mn mx (p + q) = trunc mn mx p + trunc mn mx q := by
  ext e
  simp only [trunc, coeff_add, Finsupp.filter_add, ofCoeff_add]

open Classical in
omit [DecidableEq T] in
theorem trunc_zero {n : ℕ} (mn mx : List ℤ) : trunc mn mx (0 : Poly T n) = 0 := by
  unfold trunc
  rw [coeff_zero, Finsupp.filter_zero]
  rfl

open Classical in
omit [DecidableEq T] in
theorem trunc_single {n : ℕ} (mn mx : List ℤ) (e : Fin n → ℤ) (c : T) :
    trunc mn mx (single e c : Poly T n) = if InWindow mn mx e then single e c else 0 := by
  unfold trunc
  rw [coeff_single]
  by_cases h : InWindow mn mx e
  · rw [if_pos h, Finsupp.filter_single_of_pos _ h]; rfl
  · rw [if_neg h, Finsupp.filter_single_of_neg _ h]; rfl

/-! ## The loop over the variables -/

omit [CommSemiring T] [DecidableEq T] in
theorem windowAdd_spec : ∀ (n : ℕ) (mn mx a b : List ℤ), mn.length = n → mx.length = n →
    a.length = n → b.length = n →
    ((InWindow mn mx (vecOf n a + vecOf n b) ∧
      ∃ e, windowAdd mn mx a b = some (some e) ∧ e.length = n ∧ vecOf n e = vecOf n a + vecOf n b) ∨
    (¬ InWindow mn mx (vecOf n a + vecOf n b) ∧ windowAdd mn mx a b = some none))
  | 0, [], [], [], [], _, _, _, _ => by
    left
    exact ⟨fun i => i.elim0, [], rfl, rfl, funext fun i => i.elim0⟩
  | n + 1, lo :: mn, hi :: mx, a :: as, b :: bs, h1, h2, h3, h4 => by
    have hv0 : (vecOf (n + 1) (a :: as) + vecOf (n + 1) (b :: bs)) 0 = a + b := by simp [vecOf]
    have hvs : ∀ i : Fin n, (vecOf (n + 1) (a :: as) + vecOf (n + 1) (b :: bs)) i.succ =
        (vecOf n as + vecOf n bs) i := by intro i; simp [vecOf]
    unfold windowAdd
    by_cases hout : a + b < lo ∨ a + b > hi
    · right
      rw [if_pos hout]
      refine ⟨fun hw => ?_, rfl⟩
      have := hw 0
      rw [hv0] at this
      simp at this
      omega
    · rw [if_neg hout]
      rcases windowAdd_spec n mn mx as bs (by simpa using h1) (by simpa using h2) (by simpa using h3)
        (by simpa using h4) with ⟨hw, e, he, hl, hv⟩ | ⟨hw, he⟩
      · left
        refine ⟨?_, (a + b) :: e, by rw [he]; rfl, by simp [hl], ?_⟩
        · intro i
          refine Fin.cases ?_ (fun j => ?_) i
          · rw [hv0]; simp; omega
          · rw [hvs]; simpa using hw j
        · funext i
          refine Fin.cases ?_ (fun j => ?_) i
          · rw [hv0]; simp [vecOf]
          · rw [hvs, ← hv]; simp [vecOf]
      · right
        refine ⟨fun hw' => hw fun i => ?_, by rw [he]; rfl⟩
        have := hw' i.succ
        rw [hvs] at this
        simpa using this

omit [CommSemiring T] [DecidableEq T] in
theorem plainAdd_spec : ∀ (n : ℕ) (a b : List ℤ), a.length = n → b.length = n →
    ∃ e, plainAdd a b = some (some e) ∧ e.length = n ∧ vecOf n e = vecOf n a + vecOf n b
  | 0, [], [], _, _ => ⟨[], rfl, rfl, funext fun i => i.elim0⟩
  | n + 1, a :: as, b :: bs, h1, h2 => by
    obtain ⟨e, he, hl, hv⟩ := plainAdd_spec n as bs (by simpa using h1) (by simpa using h2)
    refine ⟨(a + b) :: e, by unfold plainAdd; rw [he]; rfl, by simp [hl], ?_⟩
    funext i
    refine Fin.cases ?_ (fun j => ?_) i
    · simp [vecOf]
    · have := congrFun hv j
      simpa [vecOf] using this

/-! ## The loops over the terms -/

/-- The product terms in the order of insertion. -/
def prods (add : List ℤ → List ℤ → Option (Option (List ℤ))) (as bs : List (Term T)) :
    List (Term T) :=
  as.flatMap fun a => bs.filterMap fun b =>
    match add a.exps b.exps with
    | some (some e) => some ⟨a.coef * b.coef, e, -1⟩
    | _ => none

/-- The loop over the variables does not go wrong on terms of length `n`. -/
def AddOk (n : ℕ) (add : List ℤ → List ℤ → Option (Option (List ℤ))) : Prop :=
  ∀ a b : List ℤ, a.length = n → b.length = n → ∃ r, add a b = some r ∧ ∀ e, r = some e → e.length = n

omit [DecidableEq T] in
theorem addLoop_spec (n : ℕ) (hn : 0 < n) (l : List (Term T)) (hl : Mono n l) (r : Option (Root T))
    (hr : OWF n r) : ∃ r', Gms.addLoop n l r = some r' ∧ OWF n r' ∧
      (∀ k, coefAt k (oflat n r') = coefAt k (oflat n r) + coefAt k l) ∧
      (r' = none ↔ r = none ∧ l = []) := by
  obtain ⟨m, rfl⟩ : ∃ m, n = m + 1 := ⟨n - 1, by omega⟩
  induction l generalizing r with
  | nil => exact ⟨r, rfl, hr, by simp, by simp⟩
  | cons b bs ih =>
    obtain ⟨r1, e1, w1, c1⟩ := insertTrie_spec m b.coef (-1) b.exps r (hl b (by simp)).2 hr
    obtain ⟨r2, e2, w2, c2, z2⟩ := ih (some r1) (fun t ht => hl t (by simp [ht])) w1
    refine ⟨r2, by unfold Gms.addLoop; rw [e1]; exact e2, w2, fun k => ?_, ?_⟩
    · have hk : b.key = (-1, b.exps) := by unfold Term.key; rw [(hl b (by simp)).1]
      rw [c2 k, coefAt_cons, hk, ← add_assoc]
      congr 1
      exact c1 k
    · rw [z2]; simp

omit [DecidableEq T] in
theorem addLoop_append (n : ℕ) (l l' : List (Term T)) (r : Option (Root T)) :
    Gms.addLoop n (l ++ l') r = (Gms.addLoop n l r).bind (Gms.addLoop n l') := by
  induction l generalizing r with
  | nil => rfl
  | cons b bs ih =>
    rw [List.cons_append, Gms.addLoop, Gms.addLoop]
    cases insertTrie n b.coef (-1) b.exps r with
    | none => rfl
    | some r1 => exact ih (some r1)

omit [DecidableEq T] in
theorem mulInner_eq (n : ℕ) (add : List ℤ → List ℤ → Option (Option (List ℤ))) (ha : AddOk n add)
    (a : Term T) (hal : a.exps.length = n) (bs : List (Term T)) (hb : ∀ b ∈ bs, b.exps.length = n)
    (r : Option (Root T)) : mulInner n add a bs r = Gms.addLoop n (prods add [a] bs) r := by
  induction bs generalizing r with
  | nil => rfl
  | cons b bs ih =>
    obtain ⟨s, hs, -⟩ := ha a.exps b.exps hal (hb b (by simp))
    have ihb := ih (fun x hx => hb x (by simp [hx]))
    unfold mulInner
    cases s with
    | none =>
      simp only [hs]
      rw [ihb]
      congr 1
      simp [prods, hs]
    | some e =>
      simp only [hs]
      have : prods add [a] (b :: bs) = ⟨a.coef * b.coef, e, -1⟩ :: prods add [a] bs := by
        simp [prods, hs]
      rw [this, Gms.addLoop]
      cases insertTrie n (a.coef * b.coef) (-1) e r with
      | none => rfl
      | some r1 => exact ihb (some r1)

omit [DecidableEq T] in
theorem mulOuter_eq (n : ℕ) (add : List ℤ → List ℤ → Option (Option (List ℤ))) (ha : AddOk n add)
    (as bs : List (Term T)) (hal : ∀ a ∈ as, a.exps.length = n) (hb : ∀ b ∈ bs, b.exps.length = n)
    (r : Option (Root T)) : mulOuter n add (some bs) as r = Gms.addLoop n (prods add as bs) r := by
  induction as generalizing r with
  | nil => rfl
  | cons a as ih =>
    have : prods add (a :: as) bs = prods add [a] bs ++ prods add as bs := by simp [prods]
    rw [this, addLoop_append, mulOuter, mulInner_eq n add ha a (hal a (by simp)) bs hb]
    cases Gms.addLoop n (prods add [a] bs) r with
    | none => rfl
    | some r1 => exact ih (fun x hx => hal x (by simp [hx])) r1

omit [DecidableEq T] in
theorem prods_mono (n : ℕ) (add : List ℤ → List ℤ → Option (Option (List ℤ))) (ha : AddOk n add)
    (as bs : List (Term T)) (hal : ∀ a ∈ as, a.exps.length = n) (hb : ∀ b ∈ bs, b.exps.length = n) :
    Mono n (prods add as bs) := by
  intro t ht
  unfold prods at ht
  rw [List.mem_flatMap] at ht
  obtain ⟨a, haa, ht⟩ := ht
  rw [List.mem_filterMap] at ht
  obtain ⟨b, hbb, ht⟩ := ht
  obtain ⟨s, hs, hl⟩ := ha a.exps b.exps (hal a haa) (hb b hbb)
  rw [hs] at ht
  cases s with
  | none => simp at ht
  | some e =>
    simp only [Option.some.injEq] at ht
    subst ht
    exact ⟨rfl, hl e rfl⟩

/-- What the loop over the variables selects. -/
def Selects (n : ℕ) (add : List ℤ → List ℤ → Option (Option (List ℤ)))
    (tr : Poly T n → Poly T n) : Prop :=
  ∀ (a b : List ℤ) (c : T), a.length = n → b.length = n → ∃ s, add a b = some s ∧
    (∀ e, s = some e → e.length = n) ∧
    tr (single (vecOf n a + vecOf n b) c) = match s with
      | none => 0
      | some e => single (vecOf n e) c

omit [DecidableEq T] in
theorem prods_toPoly (n : ℕ) (add : List ℤ → List ℤ → Option (Option (List ℤ)))
    (tr : Poly T n → Poly T n) (hs : Selects n add tr) (h0 : tr 0 = 0)
    (hadd : ∀ p q, tr (p + q) = tr p + tr q)
    (as bs : List (Term T)) (hal : ∀ a ∈ as, a.exps.length = n) (hb : ∀ b ∈ bs, b.exps.length = n) :
    toPoly n (prods add as bs) = tr (toPoly n as * toPoly n bs) := by
  induction as with
  | nil =>
    show toPoly n [] = tr (0 * _)
    rw [zero_mul, h0]; rfl
  | cons a as ih =>
    have : prods add (a :: as) bs = prods add [a] bs ++ prods add as bs := by simp [prods]
    rw [this, toPoly_append, ih fun x hx => hal x (by simp [hx]), toPoly_cons, add_mul, hadd]
    congr 1
    clear ih this
    induction bs with
    | nil =>
      show toPoly n [] = tr (_ * 0)
      rw [mul_zero, h0]; rfl
    | cons b bs ihb =>
      rw [toPoly_cons, mul_add, hadd, ← ihb fun x hx => hb x (by simp [hx]), single_mul_single]
      obtain ⟨s, e1, -, e2⟩ := hs a.exps b.exps (a.coef * b.coef) (hal a (by simp)) (hb b (by simp))
      rw [e2]
      cases s with
      | none =>
        have : prods add [a] (b :: bs) = prods add [a] bs := by simp [prods, e1]
        rw [this, zero_add]
      | some e =>
        have : prods add [a] (b :: bs) = ⟨a.coef * b.coef, e, -1⟩ :: prods add [a] bs := by
          simp [prods, e1]
        rw [this, toPoly_cons]

omit [DecidableEq T] in
theorem window_selects (n : ℕ) (mn mx : List ℤ) (h1 : mn.length = n) (h2 : mx.length = n) :
    Selects n (windowAdd mn mx) (trunc (T := T) mn mx) := by
  classical
  intro a b c ha hb
  rcases windowAdd_spec n mn mx a b h1 h2 ha hb with ⟨hw, e, he, hl, hv⟩ | ⟨hw, he⟩
  · refine ⟨some e, he, fun e' h => ?_, ?_⟩
    · cases h; exact hl
    · rw [trunc_single, if_pos hw]
      show _ = single (vecOf n e) c
      rw [hv]
  · refine ⟨none, he, fun e' h => by simp at h, ?_⟩
    rw [trunc_single, if_neg hw]

omit [DecidableEq T] in
theorem plain_selects (n : ℕ) : Selects (T := T) n plainAdd id := by
  intro a b c ha hb
  obtain ⟨e, he, hl, hv⟩ := plainAdd_spec n a b ha hb
  refine ⟨some e, he, fun e' h => ?_, ?_⟩
  · cases h; exact hl
  · simp only [id]; rw [hv]

/-! ## Stores and polynomials -/

/-- A store represents a polynomial. -/
def Reps (n : ℕ) (t : Root T) (p : Poly T n) : Prop :=
  WF n t.elem ∧ ∀ k, coefAt k (flat n t.elem) = coefP n p k

/-- **Specification.** What iterating delivers for the polynomial `p`: exactly its terms, sorted. -/
def Delivers (n : ℕ) (out : List (Term T)) (p : Poly T n) : Prop :=
  (∀ t ∈ out, t.degree = -1 ∧ t.exps.length = n ∧ t.coef ≠ 0) ∧
  out.Pairwise (fun a b => List.Lex (· < ·) a.exps b.exps) ∧ toPoly n out = p

theorem reps_drain (n : ℕ) (hn : 0 < n) (t : Root T) (p : Poly T n) (h : Reps n t p) :
    ∃ out N, (∀ fuel rounds, N ≤ fuel → N ≤ rounds → drain fuel rounds (begin' (some t) n) = some out) ∧
      Delivers n out p := by
  obtain ⟨hw, hc⟩ := h
  obtain ⟨f1, f2⟩ := flat_sorted n t.elem hw
  have hs := f1.filter (fun u : Term T => u.coef ≠ 0)
  have hmem : ∀ u ∈ nonzero (flat n t.elem), u.coef ≠ 0 ∧ u.exps.length = n := by
    intro u hu
    unfold nonzero at hu
    rw [List.mem_filter] at hu
    exact ⟨by simpa using hu.2, f2 u hu.1⟩
  have hdeg : ∀ u ∈ nonzero (flat n t.elem), u.degree = -1 := by
    intro u hu
    by_contra hne
    have h1 := coefAt_of_mem (nonzero (flat n t.elem)) hs u hu
    rw [coefAt_nonzero, hc, coefP, if_neg (fun h => hne h.1)] at h1
    exact (hmem u hu).1 h1.symm
  refine ⟨nonzero (flat n t.elem), (flat n t.elem).length + 1, fun fuel rounds a b =>
    drain_begin n hn t hw fuel rounds (by omega) (by omega), ?_, ?_, ?_⟩
  · exact fun u hu => ⟨hdeg u hu, (hmem u hu).2, (hmem u hu).1⟩
  · exact hs.imp_of_mem fun ha hb h => h ((hdeg _ ha).trans (hdeg _ hb).symm)
  · apply coefP_injective
    intro k
    rw [← coefAt_mono n _ (fun u hu => ⟨hdeg u hu, (hmem u hu).2⟩), coefAt_nonzero, hc]

omit [DecidableEq T] in
/-- The loops insert the truncated product. -/
theorem mulOuter_reps (n : ℕ) (hn : 0 < n) (add : List ℤ → List ℤ → Option (Option (List ℤ)))
    (tr : Poly T n → Poly T n) (hs : Selects n add tr) (h0 : tr 0 = 0)
    (hadd : ∀ p q, tr (p + q) = tr p + tr q) (as bs : List (Term T)) (p q : Poly T n)
    (ha : Mono n as) (hb : Mono n bs) (hp : toPoly n as = p) (hq : toPoly n bs = q) :
    ∃ r, mulOuter n add (some bs) as none = some r ∧
      ((r = none ∧ prods add as bs = [] ∧ tr (p * q) = 0) ∨
        ∃ t, r = some t ∧ prods add as bs ≠ [] ∧ Reps n t (tr (p * q))) := by
  have hok : AddOk n add := by
    intro a b h1 h2
    obtain ⟨s, e1, e2, -⟩ := hs a b 0 h1 h2
    exact ⟨s, e1, e2⟩
  have hal : ∀ a ∈ as, a.exps.length = n := fun a h => (ha a h).2
  have hbl : ∀ a ∈ bs, a.exps.length = n := fun a h => (hb a h).2
  have hm := prods_mono n add hok as bs hal hbl
  obtain ⟨r, e, w, c, z⟩ := addLoop_spec n hn (prods add as bs) hm none trivial
  have hpoly := prods_toPoly n add tr hs h0 hadd as bs hal hbl
  rw [hp, hq] at hpoly
  refine ⟨r, by rw [mulOuter_eq n add hok as bs hal hbl]; exact e, ?_⟩
  cases hr : r with
  | none =>
    left
    have := (z.mp hr).2
    refine ⟨rfl, this, ?_⟩
    rw [← hpoly, this]; rfl
  | some t =>
    right
    refine ⟨t, rfl, fun h => ?_, ?_, fun k => ?_⟩
    · have := z.mpr ⟨rfl, h⟩
      rw [hr] at this; simp at this
    · rw [hr] at w; exact w
    · have := c k
      rw [hr] at this
      simp only [oflat, coefAt_nil, zero_add] at this
      rw [this, coefAt_mono n _ hm, hpoly]

theorem insertAll_reps (n : ℕ) (hn : 0 < n) (xs : List (Term T)) (hx : Mono n xs)
    (hne : ∃ x ∈ xs, x.coef ≠ 0) :
    ∃ s t, insertAll (emptySum T n) xs = some s ∧ s.trie = some t ∧ Reps n t (toPoly n xs) := by
  obtain ⟨s, e, o⟩ := insertAll_ok n hn xs (fun x h => (hx x h).2)
  have hc : s.termCount ≠ 0 := by
    rw [o.count]
    obtain ⟨x, hx, h0⟩ := hne
    have : x ∈ nonzero xs := by simp [nonzero, hx, h0]
    exact (List.length_pos_of_mem this).ne'
  obtain ⟨t, a, b, c⟩ := o.trie hc
  exact ⟨s, t, e, a, b, fun k => by rw [c, coefAt_mono n xs hx]⟩

/-- **C23.** Two polynomials over `n ≥ 1` variables are stored by inserting non-trivial lists of terms;
`mn`, `mx` are arrays of length `n`. The windowed product of the two stores runs without a wrong access;
either its result is the untouched new store, and then the product has no term within the window, or
iterating over the result delivers, in strictly increasing lexicographic order and without zeros,
exactly the terms of the product of the polynomials (multiplication of Mathlib's
`AddMonoidAlgebra`) within the window. -/
theorem c23_windowed_product (n : ℕ) (hn : 0 < n) (xs ys : List (Term T)) (hx : Mono n xs)
    (hy : Mono n ys) (hxn : ∃ x ∈ xs, x.coef ≠ 0) (hyn : ∃ y ∈ ys, y.coef ≠ 0) (mn mx : List ℤ)
    (h1 : mn.length = n) (h2 : mx.length = n) :
    ∃ s s', insertAll (emptySum T n) xs = some s ∧ insertAll (emptySum T n) ys = some s' ∧
      ∃ N r, (∀ fuel rounds, N ≤ fuel → N ≤ rounds →
          multiply fuel rounds n (windowAdd mn mx) s.trie s'.trie = some r) ∧
        ((r = none ∧ trunc mn mx (toPoly n xs * toPoly n ys) = 0) ∨
          ∃ out M, (∀ fuel rounds, M ≤ fuel → M ≤ rounds →
              drain fuel rounds (begin' r n) = some out) ∧
            Delivers n out (trunc mn mx (toPoly n xs * toPoly n ys))) := by
  obtain ⟨s, t, e, et, R⟩ := insertAll_reps n hn xs hx hxn
  obtain ⟨s', t', e', et', R'⟩ := insertAll_reps n hn ys hy hyn
  obtain ⟨as, N, d1, d2⟩ := reps_drain n hn t _ R
  obtain ⟨bs, N', d1', d2'⟩ := reps_drain n hn t' _ R'
  obtain ⟨r, q1, q2⟩ := mulOuter_reps n hn (windowAdd mn mx) (trunc mn mx)
    (window_selects n mn mx h1 h2) (trunc_zero mn mx) (trunc_add mn mx) as bs _ _
    (fun u hu => ⟨(d2.1 u hu).1, (d2.1 u hu).2.1⟩) (fun u hu => ⟨(d2'.1 u hu).1, (d2'.1 u hu).2.1⟩)
    d2.2.2 d2'.2.2
  refine ⟨s, s', e, e', max N N', r, fun fuel rounds a b => ?_, ?_⟩
  · unfold multiply
    rw [et, et', d1 fuel rounds ((le_max_left _ _).trans a) ((le_max_left _ _).trans b),
      d1' fuel rounds ((le_max_right _ _).trans a) ((le_max_right _ _).trans b)]
    exact q1
  · rcases q2 with ⟨q2, -, q3⟩ | ⟨t2, rfl, -, q3⟩
    · exact Or.inl ⟨q2, q3⟩
    · obtain ⟨out, M, o1, o2⟩ := reps_drain n hn t2 _ q3
      exact Or.inr ⟨out, M, o1, o2⟩

/-- **C23, without a window.** -/
theorem c23_product (n : ℕ) (hn : 0 < n) (xs ys : List (Term T)) (hx : Mono n xs)
    (hy : Mono n ys) (hxn : ∃ x ∈ xs, x.coef ≠ 0) (hyn : ∃ y ∈ ys, y.coef ≠ 0) :
    ∃ s s', insertAll (emptySum T n) xs = some s ∧ insertAll (emptySum T n) ys = some s' ∧
      ∃ N r, (∀ fuel rounds, N ≤ fuel → N ≤ rounds →
          multiply fuel rounds n plainAdd s.trie s'.trie = some r) ∧
        ((r = none ∧ toPoly n xs * toPoly n ys = 0) ∨
          ∃ out M, (∀ fuel rounds, M ≤ fuel → M ≤ rounds →
              drain fuel rounds (begin' r n) = some out) ∧
            Delivers n out (toPoly n xs * toPoly n ys)) := by
  obtain ⟨s, t, e, et, R⟩ := insertAll_reps n hn xs hx hxn
  obtain ⟨s', t', e', et', R'⟩ := insertAll_reps n hn ys hy hyn
  obtain ⟨as, N, d1, d2⟩ := reps_drain n hn t _ R
  obtain ⟨bs, N', d1', d2'⟩ := reps_drain n hn t' _ R'
  obtain ⟨r, q1, q2⟩ := mulOuter_reps n hn plainAdd id (plain_selects n) rfl (fun _ _ => rfl) as bs _ _
    (fun u hu => ⟨(d2.1 u hu).1, (d2.1 u hu).2.1⟩) (fun u hu => ⟨(d2'.1 u hu).1, (d2'.1 u hu).2.1⟩)
    d2.2.2 d2'.2.2
  refine ⟨s, s', e, e', max N N', r, fun fuel rounds a b => ?_, ?_⟩
  · unfold multiply
    rw [et, et', d1 fuel rounds ((le_max_left _ _).trans a) ((le_max_left _ _).trans b),
      d1' fuel rounds ((le_max_right _ _).trans a) ((le_max_right _ _).trans b)]
    exact q1
  · rcases q2 with ⟨q2, -, q3⟩ | ⟨t2, rfl, -, q3⟩
    · exact Or.inl ⟨q2, q3⟩
    · obtain ⟨out, M, o1, o2⟩ := reps_drain n hn t2 _ q3
      exact Or.inr ⟨out, M, o1, o2⟩

/-- Non-vacuous: (x + 2y)(x - 2y + 1) in the window [0,2] × [0,1]. -/
example : (do
    let s ← insertAll (emptySum ℤ 2) [⟨1, [1, 0], -1⟩, ⟨2, [0, 1], -1⟩]
    let s' ← insertAll (emptySum ℤ 2) [⟨1, [1, 0], -1⟩, ⟨-2, [0, 1], -1⟩, ⟨1, [0, 0], -1⟩]
    let r ← multiply 9 9 2 (windowAdd [0, 0] [2, 1]) s.trie s'.trie
    (drain 9 9 (begin' r 2)).map (List.map fun t => (t.coef, t.exps))) =
    some [(2, [0, 1]), (1, [1, 0]), (1, [2, 0])] := by decide +kernel

/-! ## The product for block storage -/

omit [DecidableEq T] in
/-- **A defect (C46).** The product for block storage multiplies only the first term of the first factor:
the result does not depend on the others. -/
theorem c46_block_product_ignores_rest (add : List ℤ → List ℤ → Option (Option (List ℤ))) (a : Term T)
    (as bs : List (Term T)) : blockOuter add (a :: as) bs = blockOuter add [a] bs := by
  have : ∀ as : List (Term T), blockOuter add as [] = some [] := by
    intro as
    induction as with
    | nil => rfl
    | cons b as ih => simp [blockOuter, blockInner, ih]
  unfold blockOuter
  rw [this as, this []]

/-- (1 + x)(1 + x) comes out as 1 + x. -/
theorem c46_block_product_wrong :
    blockOuter (T := ℤ) (windowAdd [0] [5]) [⟨1, [0], -1⟩, ⟨1, [1], -1⟩] [⟨1, [0], -1⟩, ⟨1, [1], -1⟩] =
      some [(1, [0]), (1, [1])] := by decide +kernel

omit [DecidableEq T] in
/-- What does hold: for a first factor with a single term the block product is the windowed product. -/
theorem c46_block_product_partial (n : ℕ) (a : Term T) (bs : List (Term T)) (mn mx : List ℤ)
    (h1 : mn.length = n) (h2 : mx.length = n) (ha : a.exps.length = n)
    (hb : ∀ b ∈ bs, b.exps.length = n) :
    ∃ l, blockOuter (windowAdd mn mx) [a] bs = some l ∧
      toPoly n (l.map fun x => ⟨x.1, x.2, -1⟩) =
        trunc mn mx (single (vecOf n a.exps) a.coef * toPoly n bs) := by
  have hs := window_selects (T := T) n mn mx h1 h2
  have hl : ∀ bs : List (Term T), (∀ b ∈ bs, b.exps.length = n) →
      blockOuter (windowAdd mn mx) [a] bs =
        some ((prods (windowAdd mn mx) [a] bs).map fun t => (t.coef, t.exps)) := by
    intro bs hb
    have : blockInner (windowAdd mn mx) a bs =
        some ((prods (windowAdd mn mx) [a] bs).map fun t => (t.coef, t.exps)) := by
      induction bs with
      | nil => rfl
      | cons b bs ih =>
        obtain ⟨s, e1, -, -⟩ := hs a.exps b.exps 0 ha (hb b (by simp))
        have ih' := ih fun x hx => hb x (by simp [hx])
        unfold blockInner
        cases s with
        | none => simp [prods, e1] at ih' ⊢; exact ih'
        | some e => simp [prods, e1] at ih' ⊢; exact ih'
    unfold blockOuter
    rw [this]
    simp [blockOuter]
  refine ⟨_, hl bs hb, ?_⟩
  have hp := prods_toPoly n (windowAdd mn mx) (trunc mn mx) hs (trunc_zero mn mx) (trunc_add mn mx)
    [a] bs (by simpa using ha) hb
  have hok : AddOk n (windowAdd mn mx) := by
    intro a b h1 h2
    obtain ⟨s, e1, e2, -⟩ := hs a b 0 h1 h2
    exact ⟨s, e1, e2⟩
  have hm := prods_mono n (windowAdd mn mx) hok [a] bs (by simpa using ha) hb
  have : ((prods (windowAdd mn mx) [a] bs).map fun t => (t.coef, t.exps)).map
      (fun x => (⟨x.1, x.2, -1⟩ : Term T)) = prods (windowAdd mn mx) [a] bs := by
    rw [List.map_map]
    conv_rhs => rw [← List.map_id (prods (windowAdd mn mx) [a] bs)]
    apply List.map_congr_left
    intro t ht
    have := (hm t ht).1
    cases t
    simp at this ⊢
    exact this.symm
  rw [this, hp]
  simp [toPoly]

end Verif.Trie
