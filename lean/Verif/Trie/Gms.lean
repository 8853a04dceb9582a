import Verif.Trie.MulProps
import Mathlib.Data.Fin.VecNotation

/-!
# C45: histories of polynomial objects (`GeneralMonomialSum`)
-/

namespace Verif.Trie

open AddMonoidAlgebra

variable {T : Type} [CommSemiring T] [DecidableEq T]

/-- A history of a polynomial object over `n` variables. -/
inductive Hist (T : Type) (n : ℕ) where
  | new
  | insert (h : Hist T n) (c : T) (e : Fin n → ℤ)
  | add (h k : Hist T n)
  | multiply (h k : Hist T n) (mn mx : Fin n → ℤ)
  | constant (h : Hist T n) (c : T)

/-- **Specification.** The polynomial a history stands for. -/
noncomputable def Hist.exact {n : ℕ} : Hist T n → Poly T n
  | .new => 0
  | .insert h c e => h.exact + single e c
  | .add h k => h.exact + k.exact
  | .multiply h k mn mx => trunc (List.ofFn mn) (List.ofFn mx) (h.exact * k.exact)
  | .constant _ c => single 0 c

/-- The objects. Operands are distinct objects (`p.add(p)` is not covered). -/
def Hist.run {n : ℕ} (fuel : ℕ) : Hist T n → Option (Gms T)
  | .new => some (Gms.new T n)
  | .insert h c e => (h.run fuel).bind fun g => g.insertMonomial c (List.ofFn e)
  | .add h k => (h.run fuel).bind fun g => (k.run fuel).bind fun g' => g.add fuel fuel g'
  | .multiply h k mn mx => (h.run fuel).bind fun g => (k.run fuel).bind fun g' =>
      g.multiply fuel fuel g' (List.ofFn mn) (List.ofFn mx)
  | .constant h c => (h.run fuel).bind fun g => g.setToConstant c

/-- No object is set to the constant zero. -/
def Hist.Safe {n : ℕ} : Hist T n → Prop
  | .new => True
  | .insert h _ _ => h.Safe
  | .add h k => h.Safe ∧ k.Safe
  | .multiply h k _ _ => h.Safe ∧ k.Safe
  | .constant h c => h.Safe ∧ c ≠ 0

/-- The invariant of the class. -/
def GOk (n : ℕ) (g : Gms T) (p : Poly T n) : Prop :=
  g.varCount = n ∧
  match g.mono with
  | .freed => False
  | .null => g.termCount = 0 ∧ p = 0
  | .live none => g.termCount = 0 ∧ p = 0
  | .live (some t) => g.termCount ≠ 0 ∧ Reps n t p

omit [DecidableEq T] in
theorem reps_insert (m : ℕ) (c : T) (e : Fin (m + 1) → ℤ) (t : Option (Root T)) (p : Poly T (m + 1))
    (h : match t with
      | none => p = 0
      | some t => Reps (m + 1) t p) :
    ∃ r, insertTrie (m + 1) c (-1) (List.ofFn e) t = some r ∧ Reps (m + 1) r (p + single e c) := by
  have hw : OWF (m + 1) t := by
    cases t with
    | none => trivial
    | some t => exact h.1
  obtain ⟨r, e1, e2, e3⟩ := insertTrie_spec m c (-1) (List.ofFn e) t (by simp) hw
  refine ⟨r, e1, e2, fun k => ?_⟩
  rw [e3 k, coefP_add]
  have h1 : single e c = single (vecOf (m + 1) (List.ofFn e)) c := by rw [vecOf_ofFn]
  rw [h1, coefP_single (m + 1) (List.ofFn e) (by simp)]
  congr 1
  cases t with
  | none => rw [show p = 0 from h, coefP_zero]; rfl
  | some t => exact h.2 k

theorem insertMonomial_ok (n : ℕ) (hn : 0 < n) (g : Gms T) (p : Poly T n) (h : GOk n g p) (c : T)
    (e : Fin n → ℤ) : ∃ g', g.insertMonomial c (List.ofFn e) = some g' ∧ GOk n g' (p + single e c) := by
  obtain ⟨m, rfl⟩ : ∃ m, n = m + 1 := ⟨n - 1, by omega⟩
  obtain ⟨cnt, vars, mono⟩ := g
  obtain ⟨hv, hm⟩ := h
  simp only at hv hm
  subst hv
  unfold Gms.insertMonomial
  by_cases hc : c = 0
  · rw [if_pos hc]
    refine ⟨_, rfl, rfl, ?_⟩
    have : p + single e c = p := by
      rw [hc]
      ext x
      simp
    rw [this]
    exact hm
  · rw [if_neg hc]
    cases mono with
    | freed => exact absurd hm id
    | null =>
      simp only [hm.1, if_true]
      obtain ⟨r, e1, e2⟩ := reps_insert m c e none p hm.2
      rw [e1]
      exact ⟨_, rfl, rfl, Nat.succ_ne_zero _, e2⟩
    | live t =>
      cases t with
      | none =>
        simp only [hm.1, if_true]
        obtain ⟨r, e1, e2⟩ := reps_insert m c e none p hm.2
        rw [e1]
        exact ⟨_, rfl, rfl, Nat.succ_ne_zero _, e2⟩
      | some t =>
        simp only [hm.1, if_false]
        obtain ⟨r, e1, e2⟩ := reps_insert m c e (some t) p hm.2
        rw [e1]
        exact ⟨_, rfl, rfl, Nat.succ_ne_zero _, e2⟩

theorem add_ok (n : ℕ) (hn : 0 < n) (g g' : Gms T) (p q : Poly T n) (h : GOk n g p) (h' : GOk n g' q) :
    ∃ N r, (∀ fuel, N ≤ fuel → g.add fuel fuel g' = some r) ∧ GOk n r (p + q) := by
  obtain ⟨cnt, vars, mono⟩ := g
  obtain ⟨cnt', vars', mono'⟩ := g'
  obtain ⟨hv, hm⟩ := h
  obtain ⟨hv', hm'⟩ := h'
  simp only at hv hm hv' hm'
  subst hv hv'
  have zero : cnt' = 0 → q = 0 := by
    intro h0
    cases mono' with
    | freed => exact absurd hm' id
    | null => exact hm'.2
    | live t =>
      cases t with
      | none => exact hm'.2
      | some t => exact absurd h0 hm'.1
  by_cases h0 : cnt' = 0
  · refine ⟨0, ⟨cnt, vars', mono⟩, fun fuel _ => by simp [Gms.add, h0], rfl, ?_⟩
    rw [zero h0, add_zero]
    exact hm
  · obtain ⟨t', rfl, R'⟩ : ∃ t', mono' = .live (some t') ∧ Reps vars' t' q := by
      cases mono' with
      | freed => exact absurd hm' id
      | null => exact absurd hm'.1 h0
      | live t =>
        cases t with
        | none => exact absurd hm'.1 h0
        | some t => exact ⟨t, rfl, hm'.2⟩
    obtain ⟨bs, N, d1, d2⟩ := reps_drain vars' hn t' q R'
    have hbm : Mono vars' bs := fun u hu => ⟨(d2.1 u hu).1, (d2.1 u hu).2.1⟩
    -- the start trie
    have hstart : ∃ (t0 : Option (Root T)) (c0 : ℕ),
        (⟨cnt, vars', mono⟩ : Gms T).start = ⟨c0, vars', .live t0⟩ ∧
        OWF vars' t0 ∧ (∀ k, coefAt k (oflat vars' t0) = coefP vars' p k) ∧ (c0 = 0 ↔ t0 = none) := by
      cases mono with
      | freed => exact absurd hm id
      | null =>
        refine ⟨none, 0, rfl, trivial, fun k => ?_, by simp⟩
        rw [hm.2, coefP_zero]; rfl
      | live t =>
        cases t with
        | none =>
          refine ⟨none, cnt, rfl, trivial, fun k => ?_, by simp [hm.1]⟩
          rw [hm.2, coefP_zero]; rfl
        | some t => exact ⟨some t, cnt, rfl, hm.2.1, hm.2.2, by simp [hm.1]⟩
    obtain ⟨t0, c0, s1, s2, s3, s4⟩ := hstart
    obtain ⟨r, a1, a2, a3, a4⟩ := addLoop_spec vars' hn bs hbm t0 s2
    refine ⟨N, ⟨c0 + bs.length, vars', .live r⟩, fun fuel hf => ?_, rfl, ?_⟩
    · unfold Gms.add
      rw [if_neg (by simp), if_neg h0]
      simp only [s1, Ptr.drain, d1 fuel fuel hf hf, a1, Option.map_some]
    · cases r with
      | none =>
        obtain ⟨z1, z2⟩ := a4.mp rfl
        refine ⟨by rw [s4.mpr z1, z2]; rfl, ?_⟩
        apply coefP_injective
        intro k
        rw [coefP_add, ← s3 k, z1, coefP_zero, ← d2.2.2, z2]
        rw [show toPoly vars' ([] : List (Term T)) = 0 from rfl, coefP_zero]
        exact add_zero _
      | some t =>
        refine ⟨?_, a2, fun k => ?_⟩
        · intro hz
          have hz0 : c0 + bs.length = 0 := hz
          have hz1 : c0 = 0 := by omega
          have hz2 : bs = [] := List.length_eq_zero_iff.mp (by omega)
          have := a4.mpr ⟨s4.mp hz1, hz2⟩
          simp at this
        · rw [coefP_add, ← s3 k, ← d2.2.2, ← coefAt_mono vars' bs hbm]
          exact a3 k

omit [DecidableEq T] in
theorem mulCount_eq (add : List ℤ → List ℤ → Option (Option (List ℤ))) (as bs : List (Term T)) :
    mulCount add as bs = (prods add as bs).length := by
  unfold mulCount prods
  induction as with
  | nil => rfl
  | cons a as ih =>
    rw [List.flatMap_cons, List.flatMap_cons, List.filter_append, List.length_append,
      List.length_append, ih]
    congr 1
    clear ih
    induction bs with
    | nil => rfl
    | cons b bs ihb =>
      rw [List.map_cons, List.filter_cons, List.filterMap_cons]
      cases hs : add a.exps b.exps with
      | none => simpa using ihb
      | some s =>
        cases s with
        | none => simpa using ihb
        | some e => simpa using ihb

theorem multiply_ok (n : ℕ) (hn : 0 < n) (g g' : Gms T) (p q : Poly T n) (h : GOk n g p)
    (h' : GOk n g' q) (mn mx : Fin n → ℤ) :
    ∃ N r, (∀ fuel, N ≤ fuel → g.multiply fuel fuel g' (List.ofFn mn) (List.ofFn mx) = some r) ∧
      GOk n r (trunc (List.ofFn mn) (List.ofFn mx) (p * q)) := by
  obtain ⟨cnt, vars, mono⟩ := g
  obtain ⟨cnt', vars', mono'⟩ := g'
  obtain ⟨hv, hm⟩ := h
  obtain ⟨hv', hm'⟩ := h'
  simp only at hv hm hv' hm'
  subst hv hv'
  have cases' : ∀ (c : ℕ) (m : Ptr T) (p : Poly T vars'), (match m with
      | .freed => False
      | .null => c = 0 ∧ p = 0
      | .live none => c = 0 ∧ p = 0
      | .live (some t) => c ≠ 0 ∧ Reps vars' t p) →
      (c = 0 ∧ p = 0) ∨ ∃ t, c ≠ 0 ∧ m = .live (some t) ∧ Reps vars' t p := by
    intro c m p h
    cases m with
    | freed => exact absurd h id
    | null => exact Or.inl h
    | live t =>
      cases t with
      | none => exact Or.inl h
      | some t => exact Or.inr ⟨t, h.1, rfl, h.2⟩
  rcases cases' cnt mono p hm with ⟨h0, hp⟩ | ⟨t, h0, rfl, R⟩
  · refine ⟨0, ⟨cnt, vars', mono⟩, fun fuel _ => by simp [Gms.multiply, h0], rfl, ?_⟩
    rw [hp, zero_mul, trunc_zero]
    rw [hp] at hm
    exact hm
  · rcases cases' cnt' mono' q hm' with ⟨h0', hq⟩ | ⟨t', h0', rfl, R'⟩
    · refine ⟨0, ⟨0, vars', .null⟩, fun fuel _ => by simp [Gms.multiply, h0, h0'], rfl, rfl, ?_⟩
      rw [hq, mul_zero, trunc_zero]
    · obtain ⟨as, N, d1, d2⟩ := reps_drain vars' hn t p R
      obtain ⟨bs, N', d1', d2'⟩ := reps_drain vars' hn t' q R'
      obtain ⟨r, q1, q2⟩ := mulOuter_reps vars' hn (windowAdd (List.ofFn mn) (List.ofFn mx))
        (trunc (List.ofFn mn) (List.ofFn mx))
        (window_selects vars' _ _ (by simp) (by simp)) (trunc_zero _ _) (trunc_add _ _) as bs p q
        (fun u hu => ⟨(d2.1 u hu).1, (d2.1 u hu).2.1⟩) (fun u hu => ⟨(d2'.1 u hu).1, (d2'.1 u hu).2.1⟩)
        d2.2.2 d2'.2.2
      refine ⟨max N N', ⟨mulCount (windowAdd (List.ofFn mn) (List.ofFn mx)) as bs, vars', .live r⟩,
        fun fuel hf => ?_, rfl, ?_⟩
      · unfold Gms.multiply
        rw [if_neg (by simp), if_neg h0, if_neg h0']
        simp only [Ptr.drain, d1 fuel fuel ((le_max_left _ _).trans hf) ((le_max_left _ _).trans hf),
          d1' fuel fuel ((le_max_right _ _).trans hf) ((le_max_right _ _).trans hf), q1,
          Option.getD_some]
      · rcases q2 with ⟨rfl, q2, q3⟩ | ⟨t2, rfl, q2, q3⟩
        · exact ⟨by rw [mulCount_eq, q2]; rfl, q3⟩
        · refine ⟨?_, q3⟩
          show mulCount _ as bs ≠ 0
          rw [mulCount_eq]
          exact fun h => q2 (List.length_eq_zero_iff.mp h)

/-- **C45.** Every history of insertions, additions, windowed multiplications and settings to non-zero
constants runs without a wrong access and yields an object for the exact polynomial: if the object has
a non-empty store, iterating over it delivers exactly the terms of the polynomial in order; otherwise
the polynomial is zero. Destroying the object is safe. -/
theorem c45_polynomial_histories_partial (n : ℕ) (hn : 0 < n) (h : Hist T n) (hs : h.Safe) :
    ∃ g N, (∀ fuel, N ≤ fuel → h.run fuel = some g) ∧
      ((∃ t out M, g.mono = .live (some t) ∧ (∀ fuel rounds, M ≤ fuel → M ≤ rounds →
          drain fuel rounds (begin' (some t) n) = some out) ∧ Delivers n out h.exact) ∨
        ((g.mono = .null ∨ g.mono = .live none) ∧ h.exact = 0)) ∧
      g.destroy ≠ none := by
  suffices H : ∃ g N, (∀ fuel, N ≤ fuel → h.run fuel = some g) ∧ GOk n g h.exact by
    obtain ⟨g, N, h1, h2⟩ := H
    refine ⟨g, N, h1, ?_, ?_⟩
    · obtain ⟨-, h2⟩ := h2
      cases hm : g.mono with
      | freed => rw [hm] at h2; exact absurd h2 id
      | null => rw [hm] at h2; exact Or.inr ⟨Or.inl rfl, h2.2⟩
      | live t =>
        cases t with
        | none => rw [hm] at h2; exact Or.inr ⟨Or.inr rfl, h2.2⟩
        | some t =>
          rw [hm] at h2
          obtain ⟨out, M, o1, o2⟩ := reps_drain n hn t _ h2.2
          exact Or.inl ⟨t, out, M, rfl, o1, o2⟩
    · obtain ⟨-, h2⟩ := h2
      unfold Gms.destroy
      cases hm : g.mono with
      | freed => rw [hm] at h2; exact absurd h2 id
      | null => simp
      | live t => simp
  induction h with
  | new => exact ⟨Gms.new T n, 0, fun _ _ => rfl, rfl, rfl, rfl⟩
  | insert h c e ih =>
    obtain ⟨g, N, h1, h2⟩ := ih hs
    obtain ⟨g', e1, e2⟩ := insertMonomial_ok n hn g _ h2 c e
    exact ⟨g', N, fun fuel hf => by simp [Hist.run, h1 fuel hf, e1], e2⟩
  | add h k ih ihk =>
    obtain ⟨g, N, h1, h2⟩ := ih hs.1
    obtain ⟨g', N', h1', h2'⟩ := ihk hs.2
    obtain ⟨M, r, e1, e2⟩ := add_ok n hn g g' _ _ h2 h2'
    refine ⟨r, max N (max N' M), fun fuel hf => ?_, e2⟩
    have a1 : N ≤ fuel := (le_max_left _ _).trans hf
    have a2 : N' ≤ fuel := (le_max_left _ _).trans ((le_max_right _ _).trans hf)
    have a3 : M ≤ fuel := (le_max_right _ _).trans ((le_max_right _ _).trans hf)
    simp [Hist.run, h1 fuel a1, h1' fuel a2, e1 fuel a3]
  | multiply h k mn mx ih ihk =>
    obtain ⟨g, N, h1, h2⟩ := ih hs.1
    obtain ⟨g', N', h1', h2'⟩ := ihk hs.2
    obtain ⟨M, r, e1, e2⟩ := multiply_ok n hn g g' _ _ h2 h2' mn mx
    refine ⟨r, max N (max N' M), fun fuel hf => ?_, e2⟩
    have a1 : N ≤ fuel := (le_max_left _ _).trans hf
    have a2 : N' ≤ fuel := (le_max_left _ _).trans ((le_max_right _ _).trans hf)
    have a3 : M ≤ fuel := (le_max_right _ _).trans ((le_max_right _ _).trans hf)
    simp [Hist.run, h1 fuel a1, h1' fuel a2, e1 fuel a3]
  | constant h c ih =>
    obtain ⟨g, N, h1, h2⟩ := ih hs.1
    obtain ⟨m, rfl⟩ : ∃ m, n = m + 1 := ⟨n - 1, by omega⟩
    have hrep : List.replicate (m + 1) (0 : ℤ) = List.ofFn (0 : Fin (m + 1) → ℤ) := by
      rw [← List.ofFn_const]; rfl
    obtain ⟨r, e1, e2⟩ := reps_insert m c 0 none (0 : Poly T (m + 1)) rfl
    rw [zero_add] at e2
    refine ⟨⟨1, m + 1, .live (some r)⟩, N, fun fuel hf => ?_, rfl, by simp, e2⟩
    simp only [Hist.run, h1 fuel hf, Option.bind_some]
    obtain ⟨cnt, vars, mono⟩ := g
    obtain ⟨hv, hm⟩ := h2
    simp only at hv hm
    subst hv
    cases mono with
    | freed => exact absurd hm id
    | null =>
      simp only [Gms.setToConstant, Gms.insertMonomial, if_neg hs.2, hrep, e1, if_true, Option.map_some]
    | live t =>
      simp only [Gms.setToConstant, Gms.insertMonomial, if_neg hs.2, hrep, e1, if_true, Option.map_some]

/-- **Defects.** Setting an object with terms to the constant zero leaves a dangling pointer: destroying
it afterwards frees the memory twice, and adding to it writes to freed memory. -/
theorem c45_set_to_zero_dangles :
    ∃ g : Gms ℤ, (Hist.constant (.insert .new 1 ![1]) 0 : Hist ℤ 1).run 9 = some g ∧
      g.destroy = none ∧ (Hist.add (.constant (.insert .new 1 ![1]) 0) (.insert .new 1 ![1]) :
        Hist ℤ 1).run 9 = none := by
  refine ⟨⟨0, 1, .freed⟩, ?_, ?_, ?_⟩ <;> rfl

/-- A product without terms in the window leaves a new store; iterating over it, as `printMonomials`
does, dereferences a null pointer. -/
theorem c45_empty_product_cannot_be_printed :
    ∃ g : Gms ℤ, (Hist.multiply (.insert .new 1 ![1]) (.insert .new 1 ![1]) ![0] ![1] :
        Hist ℤ 1).run 9 = some g ∧ g.mono = .live none ∧ g.mono.drain 9 9 1 = none := by
  refine ⟨⟨0, 1, .live none⟩, ?_, ?_, ?_⟩ <;> rfl

/-- Non-vacuous: (x + 1)·(x + 1) + 3 within degrees 0 to 1. -/
example : ((Hist.add (.multiply (.insert (.insert .new 1 ![1]) 1 ![0])
      (.insert (.insert .new 1 ![1]) 1 ![0]) ![0] ![1]) (.constant .new 3) : Hist ℤ 1).run 9).bind
    (fun g => (g.mono.drain 9 9 1).map (List.map fun t => (t.coef, t.exps))) =
    some [(4, [0]), (2, [1])] := by decide +kernel

end Verif.Trie
