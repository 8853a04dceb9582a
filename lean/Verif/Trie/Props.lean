import Verif.Trie.Iter
import Mathlib.Data.List.Perm.Basic
import Mathlib.Data.List.Nodup

/-!
# C21, C22: burst tries are finite maps, iteration is ordered, complete and duplicate-free
-/

namespace Verif.Trie

variable {T : Type} [AddCommMonoid T] [DecidableEq T]

/-- An empty polynomial in `n` variables. -/
def emptySum (T : Type) (n : ℕ) : Sum T := ⟨0, n, none⟩

/-- The invariant of a sequence of insertions. -/
structure SumOk (n : ℕ) (s : Sum T) (xs : List (Term T)) : Prop where
  vars : s.varCount = n
  count : s.termCount = (nonzero xs).length
  trie : s.termCount ≠ 0 → ∃ t, s.trie = some t ∧ WF n t.elem ∧
    ∀ k, coefAt k (flat n t.elem) = coefAt k xs

omit [AddCommMonoid T] [DecidableEq T] in
theorem coefAt_nonzero [AddCommMonoid T] [DecidableEq T] (k : Key) (xs : List (Term T)) :
    coefAt k (nonzero xs) = coefAt k xs := by
  induction xs with
  | nil => rfl
  | cons x xs ih =>
    by_cases h : x.coef = 0
    · have : nonzero (x :: xs) = nonzero xs := by simp [nonzero, h]
      rw [this, ih, coefAt_cons, h]
      simp [one]
    · have : nonzero (x :: xs) = x :: nonzero xs := by simp [nonzero, h]
      rw [this, coefAt_cons, coefAt_cons, ih]

theorem insertSum_ok (n : ℕ) (hn : 0 < n) (s : Sum T) (xs : List (Term T)) (h : SumOk n s xs)
    (x : Term T) (hx : x.exps.length = n) :
    ∃ s', insertSum s x = some s' ∧ SumOk n s' (xs ++ [x]) := by
  unfold insertSum
  by_cases h0 : x.coef = 0
  · rw [if_pos h0]
    refine ⟨s, rfl, h.vars, ?_, fun hc => ?_⟩
    · rw [h.count]; simp [nonzero, h0]
    · obtain ⟨t, a, b, c⟩ := h.trie hc
      refine ⟨t, a, b, fun k => ?_⟩
      rw [c k, coefAt_append, coefAt_cons, coefAt_nil, h0]
      simp [one]
  · rw [if_neg h0]
    obtain ⟨m, rfl⟩ : ∃ m, n = m + 1 := ⟨n - 1, by omega⟩
    have hcount : (nonzero (xs ++ [x])).length = s.termCount + 1 := by
      rw [h.count]; simp [nonzero, h0]
    have hnil : s.termCount = 0 → ∀ k, coefAt k xs = 0 := by
      intro h1 k
      rw [h.count] at h1
      rw [← coefAt_nonzero, List.length_eq_zero_iff.mp h1]
      rfl
    by_cases hc : s.termCount = 0
    · simp only [if_pos hc, h.vars]
      obtain ⟨r, e1, e2, e3⟩ := insertTrie_spec m x.coef x.degree x.exps none hx trivial
      rw [e1]
      refine ⟨_, rfl, rfl, hcount.symm, fun _ => ⟨r, rfl, e2, fun k => ?_⟩⟩
      rw [e3 k, coefAt_append, hnil hc k]
      simp [oflat, coefAt_cons]; rfl
    · simp only [if_neg hc, h.vars]
      obtain ⟨t, a, b, c⟩ := h.trie hc
      obtain ⟨r, e1, e2, e3⟩ := insertTrie_spec m x.coef x.degree x.exps (some t) hx b
      rw [a, e1]
      refine ⟨_, rfl, rfl, hcount.symm, fun _ => ⟨r, rfl, e2, fun k => ?_⟩⟩
      rw [e3 k, coefAt_append, ← c k]
      simp [oflat, coefAt_cons]; rfl

theorem insertAll_ok (n : ℕ) (hn : 0 < n) (xs : List (Term T)) (hx : ∀ x ∈ xs, x.exps.length = n) :
    ∃ s, insertAll (emptySum T n) xs = some s ∧ SumOk n s xs := by
  have key : ∀ (ys : List (Term T)) (s : Sum T) (zs : List (Term T)), SumOk n s zs →
      (∀ x ∈ ys, x.exps.length = n) → ∃ s', insertAll s ys = some s' ∧ SumOk n s' (zs ++ ys) := by
    intro ys
    induction ys with
    | nil => intro s zs h _; exact ⟨s, rfl, by simpa using h⟩
    | cons y ys ih =>
      intro s zs h hy
      obtain ⟨s1, e1, o1⟩ := insertSum_ok n hn s zs h y (hy y (by simp))
      obtain ⟨s2, e2, o2⟩ := ih s1 (zs ++ [y]) o1 (fun x hx => hy x (by simp [hx]))
      refine ⟨s2, ?_, by simpa using o2⟩
      unfold insertAll at e2 ⊢
      rw [List.foldl_cons]
      simp only [Option.bind_some, e1]
      exact e2
  simpa using key xs (emptySum T n) [] ⟨rfl, rfl, fun h => absurd rfl h⟩ hx

/-- **C21, C22.** Insert any terms over `n ≥ 1` variables, at least one of them with a non-zero
coefficient, one after the other into an empty polynomial store. No access goes wrong; iterating over
the store ends, and the list of terms it delivers
* contains no zero coefficients and only exponent vectors of length `n`;
* has for each degree and exponent vector exactly the sum of the inserted coefficients;
* is, for each degree, in strictly increasing lexicographic order of exponents (so nothing comes
  twice). -/
theorem c21_store_is_map (n : ℕ) (hn : 0 < n) (xs : List (Term T))
    (hx : ∀ x ∈ xs, x.exps.length = n) (hne : ∃ x ∈ xs, x.coef ≠ 0) :
    ∃ s, insertAll (emptySum T n) xs = some s ∧
      ∃ out, (∃ N, ∀ fuel rounds, N ≤ fuel → N ≤ rounds →
          drain fuel rounds (begin' s.trie n) = some out) ∧
        (∀ t ∈ out, t.coef ≠ 0 ∧ t.exps.length = n) ∧
        (∀ k, coefAt k out = coefAt k xs) ∧
        out.Pairwise (fun a b => a.degree = b.degree → List.Lex (· < ·) a.exps b.exps) := by
  obtain ⟨s, e, o⟩ := insertAll_ok n hn xs hx
  have hc : s.termCount ≠ 0 := by
    rw [o.count]
    obtain ⟨x, hx, h0⟩ := hne
    have : x ∈ nonzero xs := by simp [nonzero, hx, h0]
    exact (List.length_pos_of_mem this).ne'
  obtain ⟨t, a, b, c⟩ := o.trie hc
  obtain ⟨f1, f2⟩ := flat_sorted n t.elem b
  refine ⟨s, e, nonzero (flat n t.elem), ⟨(flat n t.elem).length + 1, fun fuel rounds h1 h2 => ?_⟩,
    ?_, ?_, ?_⟩
  · rw [a]
    exact drain_begin n hn t b fuel rounds (by omega) (by omega)
  · intro u hu
    unfold nonzero at hu
    rw [List.mem_filter] at hu
    exact ⟨by simpa using hu.2, f2 u hu.1⟩
  · intro k
    rw [coefAt_nonzero, c k]
  · exact f1.filter _

omit [DecidableEq T] in
theorem coefAt_of_not_mem (k : Key) (l : List (Term T)) (h : ∀ t ∈ l, t.key ≠ k) : coefAt k l = 0 := by
  induction l with
  | nil => rfl
  | cons x l ih =>
    rw [coefAt_cons, ih fun t ht => h t (by simp [ht]), one, if_neg (h x (by simp))]
    simp

omit [DecidableEq T] in
/-- In a list without repeated keys, the coefficient of a key is that of its term. -/
theorem coefAt_of_mem (l : List (Term T))
    (hp : l.Pairwise (fun a b => a.degree = b.degree → List.Lex (· < ·) a.exps b.exps)) (t : Term T)
    (ht : t ∈ l) : coefAt t.key l = t.coef := by
  induction l with
  | nil => simp at ht
  | cons x l ih =>
    rw [List.pairwise_cons] at hp
    rw [coefAt_cons]
    have hne : ∀ b ∈ l, x.key ≠ b.key := by
      intro b hb hk
      unfold Term.key at hk
      simp only [Prod.mk.injEq] at hk
      have := hp.1 b hb hk.1
      rw [hk.2] at this
      exact lex_irrefl this
    rcases List.mem_cons.mp ht with rfl | ht
    · rw [one, if_pos rfl, coefAt_of_not_mem _ _ (fun b hb h => hne b hb h.symm), add_zero]
    · rw [one, if_neg (hne t ht), zero_add]
      exact ih hp.2 ht

omit [DecidableEq T] in
/-- **C21, coefficient-wise.** Each delivered term carries the sum of the coefficients inserted for its
degree and exponents, and a degree and exponent vector is delivered if and only if that sum is not
zero. -/
theorem c21_coefficients (xs out : List (Term T)) (h0 : ∀ t ∈ out, t.coef ≠ 0)
    (hs : ∀ k, coefAt k out = coefAt k xs)
    (hp : out.Pairwise (fun a b => a.degree = b.degree → List.Lex (· < ·) a.exps b.exps)) :
    (∀ t ∈ out, t.coef = ((xs.filter fun x => x.degree = t.degree ∧ x.exps = t.exps).map
      Term.coef).sum) ∧
    ∀ d es, (∃ t ∈ out, t.degree = d ∧ t.exps = es) ↔
      ((xs.filter fun x => x.degree = d ∧ x.exps = es).map Term.coef).sum ≠ 0 := by
  have hc : ∀ d es, coefAt (d, es) xs =
      ((xs.filter fun x => x.degree = d ∧ x.exps = es).map Term.coef).sum := by
    intro d es
    unfold coefAt
    clear hs
    induction xs with
    | nil => rfl
    | cons x xs ih =>
      rw [List.map_cons, List.sum_cons, ih, List.filter_cons]
      by_cases h : x.degree = d ∧ x.exps = es
      · have : x.key = (d, es) := by unfold Term.key; rw [h.1, h.2]
        rw [if_pos this]
        simp [h]
      · have : x.key ≠ (d, es) := by
          intro hk
          unfold Term.key at hk
          simp only [Prod.mk.injEq] at hk
          exact h hk
        rw [if_neg this, zero_add]
        simp [h]
  refine ⟨fun t ht => ?_, fun d es => ⟨?_, ?_⟩⟩
  · rw [← hc, ← hs]
    exact (coefAt_of_mem out hp t ht).symm
  · rintro ⟨t, ht, rfl, rfl⟩
    rw [← hc, ← hs]
    have := coefAt_of_mem out hp t ht
    unfold Term.key at this
    rw [this]
    exact h0 t ht
  · intro h
    by_contra hno
    push Not at hno
    apply h
    rw [← hc, ← hs]
    apply coefAt_of_not_mem
    intro t ht hk
    unfold Term.key at hk
    simp only [Prod.mk.injEq] at hk
    exact hno t ht hk.1 hk.2

omit [AddCommMonoid T] [DecidableEq T] in
theorem ext_of_key {a b : Term T} (hk : a.key = b.key) (hc : a.coef = b.coef) : a = b := by
  cases a; cases b
  simp only [Term.key, Prod.mk.injEq] at hk hc
  simp [hk.1, hk.2, hc]

omit [DecidableEq T] in
/-- **C22: the order is canonical.** Two lists of terms of one degree, without zeros, in strictly
increasing order and with the same coefficients are equal: what iteration over a polynomial delivers
does not depend on the history of insertions (order, grouping, cancelled terms, bursts). -/
theorem c22_order_canonical (l l' : List (Term T)) (d : ℤ)
    (hd : ∀ t ∈ l, t.degree = d) (hd' : ∀ t ∈ l', t.degree = d)
    (h0 : ∀ t ∈ l, t.coef ≠ 0) (h0' : ∀ t ∈ l', t.coef ≠ 0)
    (hp : l.Pairwise (fun a b => a.degree = b.degree → List.Lex (· < ·) a.exps b.exps))
    (hp' : l'.Pairwise (fun a b => a.degree = b.degree → List.Lex (· < ·) a.exps b.exps))
    (hs : ∀ k, coefAt k l = coefAt k l') : l = l' := by
  have hmem : ∀ (a b : List (Term T)), (∀ t ∈ a, t.coef ≠ 0) →
      a.Pairwise (fun a b => a.degree = b.degree → List.Lex (· < ·) a.exps b.exps) →
      b.Pairwise (fun a b => a.degree = b.degree → List.Lex (· < ·) a.exps b.exps) →
      (∀ k, coefAt k a = coefAt k b) → ∀ t ∈ a, t ∈ b := by
    intro a b h0 hp hp' hs t ht
    by_contra hno
    have h1 := coefAt_of_mem a hp t ht
    rw [hs] at h1
    by_cases hex : ∃ u ∈ b, u.key = t.key
    · obtain ⟨u, hu, hk⟩ := hex
      rw [← hk, coefAt_of_mem b hp' u hu] at h1
      exact hno (ext_of_key hk h1 ▸ hu)
    · push Not at hex
      rw [coefAt_of_not_mem _ _ hex] at h1
      exact h0 t ht h1.symm
  have hlex : ∀ (a : List (Term T)), (∀ t ∈ a, t.degree = d) →
      a.Pairwise (fun a b => a.degree = b.degree → List.Lex (· < ·) a.exps b.exps) →
      a.Pairwise (fun a b => List.Lex (· < ·) a.exps b.exps) := by
    intro a hd hp
    exact hp.imp_of_mem fun ha hb h => h ((hd _ ha).trans (hd _ hb).symm)
  have q := hlex l hd hp
  have q' := hlex l' hd' hp'
  have nd : ∀ (a : List (Term T)), a.Pairwise (fun a b => List.Lex (· < ·) a.exps b.exps) → a.Nodup := by
    intro a h
    refine h.imp ?_
    intro x y hxy he
    rw [he] at hxy
    exact lex_irrefl hxy
  have hperm : l.Perm l' := by
    rw [List.perm_ext_iff_of_nodup (nd l q) (nd l' q')]
    intro t
    exact ⟨hmem l l' h0 hp hp' hs t, hmem l' l h0' hp' hp (fun k => (hs k).symm) t⟩
  refine hperm.eq_of_pairwise ?_ q q'
  intro a b _ _ h1 h2
  exact absurd (lex_trans h1 h2) lex_irrefl

/-- **C22, histories.** Two sequences of insertions of terms of one degree (as the monomials of a
polynomial are) with the same sums of coefficients are iterated over alike. -/
theorem c22_history_independent (n : ℕ) (hn : 0 < n) (d : ℤ) (xs ys : List (Term T))
    (hx : ∀ x ∈ xs, x.exps.length = n ∧ x.degree = d) (hy : ∀ x ∈ ys, x.exps.length = n ∧ x.degree = d)
    (hxn : ∃ x ∈ xs, x.coef ≠ 0) (hyn : ∃ x ∈ ys, x.coef ≠ 0)
    (hs : ∀ k, coefAt k xs = coefAt k ys) :
    ∃ s s' out N, insertAll (emptySum T n) xs = some s ∧ insertAll (emptySum T n) ys = some s' ∧
      ∀ fuel rounds, N ≤ fuel → N ≤ rounds →
        drain fuel rounds (begin' s.trie n) = some out ∧
        drain fuel rounds (begin' s'.trie n) = some out := by
  obtain ⟨s, e, out, ⟨N, hN⟩, a1, a2, a3⟩ := c21_store_is_map n hn xs (fun x h => (hx x h).1) hxn
  obtain ⟨s', e', out', ⟨N', hN'⟩, b1, b2, b3⟩ := c21_store_is_map n hn ys (fun x h => (hy x h).1) hyn
  have hdeg : ∀ (zs o : List (Term T)), (∀ x ∈ zs, x.degree = d) → (∀ t ∈ o, t.coef ≠ 0) →
      o.Pairwise (fun a b => a.degree = b.degree → List.Lex (· < ·) a.exps b.exps) →
      (∀ k, coefAt k o = coefAt k zs) → ∀ t ∈ o, t.degree = d := by
    intro zs o hz h0 hp hs t ht
    by_contra hne
    have := coefAt_of_mem o hp t ht
    rw [hs, coefAt_of_not_mem _ zs] at this
    · exact h0 t ht this.symm
    · intro x hx hk
      unfold Term.key at hk
      simp only [Prod.mk.injEq] at hk
      exact hne (hk.1 ▸ hz x hx)
  have heq : out = out' := c22_order_canonical out out' d
    (hdeg xs out (fun x h => (hx x h).2) (fun t h => (a1 t h).1) a3 a2)
    (hdeg ys out' (fun x h => (hy x h).2) (fun t h => (b1 t h).1) b3 b2)
    (fun t h => (a1 t h).1) (fun t h => (b1 t h).1) a3 b3
    (fun k => by rw [a2, b2, hs])
  subst heq
  refine ⟨s, s', out, max N N', e, e', fun fuel rounds h1 h2 => ⟨?_, ?_⟩⟩
  · exact hN fuel rounds ((le_max_left _ _).trans h1) ((le_max_left _ _).trans h2)
  · exact hN' fuel rounds ((le_max_right _ _).trans h1) ((le_max_right _ _).trans h2)

/-- **A defect.** Iterating over a store nothing was inserted into dereferences a null pointer
(iterators.hpp:33 and burstTrie.hpp:213–216: `firstElem` of a fresh trie is NULL). -/
theorem c22_empty_store_crashes (n fuel rounds : ℕ) (hf : 0 < fuel) (hr : 0 < rounds) :
    drain fuel rounds (begin' (none : Option (Root T)) n) = none := by
  obtain ⟨f, rfl⟩ : ∃ f, fuel = f + 1 := ⟨fuel - 1, by omega⟩
  obtain ⟨r, rfl⟩ : ∃ r, rounds = r + 1 := ⟨rounds - 1, by omega⟩
  rfl

/-- Non-vacuous: seven insertions (a burst, new minima and maxima, a cancelled term) into a store with
two variables. -/
example : ((insertAll (emptySum ℤ 2) [⟨1, [1, 2], -1⟩, ⟨2, [1, 0], -1⟩, ⟨3, [1, 1], -1⟩,
      ⟨5, [4, -3], -1⟩, ⟨-1, [-2, 7], -1⟩, ⟨-3, [1, 1], -1⟩, ⟨4, [1, 2], -1⟩]).bind fun s =>
        drain 20 20 (begin' s.trie 2)).map (List.map fun t => (t.coef, t.exps)) =
    some [(-1, [-2, 7]), (2, [1, 0]), (5, [1, 2]), (5, [4, -3])] := by decide +kernel

end Verif.Trie
