import Verif.Trie.Model
import Mathlib.Algebra.BigOperators.Group.List.Basic
import Mathlib.Data.List.Lex
import Mathlib.Tactic.Abel
import Mathlib.Tactic.Ring

/-!
# Insertion into burst tries
-/

namespace Verif.Trie

variable {T : Type} [AddCommMonoid T] [DecidableEq T]

/-- What identifies a term: degree and exponents. -/
abbrev Key := ℤ × List ℤ

/-- The key of a term. -/
def Term.key (t : Term T) : Key := (t.degree, t.exps)

/-- **Specification.** The coefficient of a key in a list of terms: the sum over the terms with that
key. -/
def coefAt (k : Key) (l : List (Term T)) : T := (l.map fun t => if t.key = k then t.coef else 0).sum

/-- The contribution of one term. -/
def one (k0 : Key) (c : T) (k : Key) : T := if k0 = k then c else 0

omit [DecidableEq T] in
@[simp] theorem coefAt_nil (k : Key) : coefAt k ([] : List (Term T)) = 0 := rfl

omit [DecidableEq T] in
theorem coefAt_cons (k : Key) (t : Term T) (l : List (Term T)) :
    coefAt k (t :: l) = one t.key t.coef k + coefAt k l := rfl

omit [DecidableEq T] in
theorem coefAt_append (k : Key) (a b : List (Term T)) :
    coefAt k (a ++ b) = coefAt k a + coefAt k b := by
  simp [coefAt]

/-- Put an exponent in front. -/
def pre (x : ℤ) (t : Term T) : Term T := { t with exps := x :: t.exps }

omit [DecidableEq T] in
theorem coefAt_pre (x : ℤ) (l : List (Term T)) (d : ℤ) (es : List ℤ) :
    coefAt (d, es) (l.map (pre x)) =
      match es with
      | [] => 0
      | y :: ys => if x = y then coefAt (d, ys) l else 0 := by
  induction l with
  | nil => cases es <;> simp
  | cons t l ih =>
    rw [List.map_cons, coefAt_cons, ih]
    cases es with
    | nil => simp [one, Term.key, pre]
    | cons y ys =>
      by_cases hxy : x = y
      · subst hxy
        simp only [if_true, coefAt_cons]
        congr 1
        simp [one, Term.key, pre]
      · simp [one, Term.key, pre, hxy]

omit [DecidableEq T] in
/-- Adding a term below an exponent. -/
theorem coefAt_pre_add (x : ℤ) (l l' : List (Term T)) (d : ℤ) (rest : List ℤ) (c : T)
    (h : ∀ k, coefAt k l' = coefAt k l + one (d, rest) c k) (k : Key) :
    coefAt k (l'.map (pre x)) = coefAt k (l.map (pre x)) + one (d, x :: rest) c k := by
  obtain ⟨d', es⟩ := k
  rw [coefAt_pre, coefAt_pre]
  cases es with
  | nil => simp [one]
  | cons y ys =>
    simp only
    by_cases hxy : x = y
    · subst hxy
      rw [if_pos rfl, if_pos rfl, h]
      congr 1
      simp [one]
    · rw [if_neg hxy, if_neg hxy]
      simp [one, hxy]

/-! ## Containers -/

/-- The order in a container: degree first, then exponents lexicographically. -/
def tlt (a b : Term T) : Prop :=
  a.degree < b.degree ∨ a.degree = b.degree ∧ List.Lex (· < ·) a.exps b.exps

omit [AddCommMonoid T] [DecidableEq T] in
theorem expsLess_spec : ∀ (a b : List ℤ), a.length = b.length →
    (expsLess a b = some (true, false) ∧ List.Lex (· < ·) a b) ∨
    (expsLess a b = some (false, true) ∧ a = b) ∨
    (expsLess a b = some (false, false) ∧ List.Lex (· < ·) b a)
  | [], [], _ => by simp [expsLess]
  | [], _ :: _, h => by simp at h
  | _ :: _, [], h => by simp at h
  | a :: as, b :: bs, h => by
    unfold expsLess
    rcases lt_trichotomy a b with hlt | heq | hgt
    · left; rw [if_pos hlt]; exact ⟨rfl, List.Lex.rel hlt⟩
    · subst heq
      simp only [lt_irrefl, if_false]
      rcases expsLess_spec as bs (by simpa using h) with h1 | h1 | h1
      · left; exact ⟨h1.1, List.Lex.cons h1.2⟩
      · right; left; exact ⟨h1.1, by rw [h1.2]⟩
      · right; right; exact ⟨h1.1, List.Lex.cons h1.2⟩
    · right; right
      rw [if_neg (not_lt.mpr hgt.le), if_pos hgt]
      exact ⟨rfl, List.Lex.rel hgt⟩

omit [AddCommMonoid T] [DecidableEq T] in
theorem lessThan_spec (a b : Term T) (h : a.exps.length = b.exps.length) :
    (lessThan a b = some (true, false) ∧ tlt a b) ∨
    (lessThan a b = some (false, true) ∧ a.key = b.key) ∨
    (lessThan a b = some (false, false) ∧ tlt b a) := by
  unfold lessThan
  rcases lt_trichotomy a.degree b.degree with hlt | heq | hgt
  · left; rw [if_pos hlt]; exact ⟨rfl, Or.inl hlt⟩
  · rw [if_neg (by rw [heq]; exact lt_irrefl _), if_neg (by rw [heq]; exact lt_irrefl _)]
    rcases expsLess_spec _ _ h with h1 | h1 | h1
    · left; exact ⟨h1.1, Or.inr ⟨heq, h1.2⟩⟩
    · right; left; exact ⟨h1.1, by unfold Term.key; rw [heq, h1.2]⟩
    · right; right; exact ⟨h1.1, Or.inr ⟨heq.symm, h1.2⟩⟩
  · right; right
    rw [if_neg (not_lt.mpr hgt.le), if_pos hgt]
    exact ⟨rfl, Or.inl hgt⟩

theorem lex_trans : ∀ {a b c : List ℤ}, List.Lex (· < ·) a b → List.Lex (· < ·) b c →
    List.Lex (· < ·) a c
  | _, _, _, .nil, .cons _ => .nil
  | _, _, _, .nil, .rel _ => .nil
  | _, _, _, .cons h1, .cons h2 => .cons (lex_trans h1 h2)
  | _, _, _, .cons _, .rel h => .rel h
  | _, _, _, .rel h, .cons _ => .rel h
  | _, _, _, .rel h1, .rel h2 => .rel (lt_trans h1 h2)

theorem lex_irrefl : ∀ {a : List ℤ}, ¬ List.Lex (· < ·) a a
  | _, .cons h => lex_irrefl h
  | _, .rel h => lt_irrefl _ h

omit [AddCommMonoid T] [DecidableEq T] in
theorem tlt_trans {a b c : Term T} (h1 : tlt a b) (h2 : tlt b c) : tlt a c := by
  rcases h1 with h1 | ⟨h1, l1⟩
  · rcases h2 with h2 | ⟨h2, _⟩
    · exact Or.inl (h1.trans h2)
    · exact Or.inl (h2 ▸ h1)
  · rcases h2 with h2 | ⟨h2, l2⟩
    · exact Or.inl (h1 ▸ h2)
    · exact Or.inr ⟨h1.trans h2, lex_trans l1 l2⟩

omit [AddCommMonoid T] [DecidableEq T] in
theorem tlt_congr {a a' b b' : Term T} (h1 : a.key = a'.key) (h2 : b.key = b'.key) (h : tlt a b) :
    tlt a' b' := by
  unfold Term.key at h1 h2
  simp only [Prod.mk.injEq] at h1 h2
  unfold tlt at *
  rw [← h1.1, ← h1.2, ← h2.1, ← h2.2]
  exact h

/-- A container in order: all exponent vectors of length `n`, strictly increasing. -/
def ContWF (n : ℕ) (ts : List (Term T)) : Prop :=
  (∀ t ∈ ts, t.exps.length = n) ∧ ts.Pairwise tlt

omit [DecidableEq T] in
theorem insertAfter_spec (n : ℕ) (new : Term T) (hn : new.exps.length = n) (ts : List (Term T))
    (h : ContWF n ts) :
    ∃ ts', insertAfter new ts = some ts' ∧ ContWF n ts' ∧ ts' ≠ [] ∧
      (∀ t' ∈ ts', t'.key = new.key ∨ ∃ t ∈ ts, t'.key = t.key) ∧
      ∀ k, coefAt k ts' = coefAt k ts + one new.key new.coef k := by
  induction ts with
  | nil =>
    refine ⟨[new], rfl, ⟨by simpa using hn, by simp⟩, by simp, by simp, fun k => ?_⟩
    rw [coefAt_cons, coefAt_nil, add_comm]
  | cons cur rest ih =>
    obtain ⟨hlen, hp⟩ := h
    rw [List.pairwise_cons] at hp
    have hc : cur.exps.length = n := hlen cur (by simp)
    unfold insertAfter
    rcases lessThan_spec cur new (hc.trans hn.symm) with ⟨h1, h2⟩ | ⟨h1, h2⟩ | ⟨h1, h2⟩
    · rw [h1]
      obtain ⟨ts', e, hw, -, hk, hs⟩ := ih ⟨fun t ht => hlen t (by simp [ht]), hp.2⟩
      simp only [e, Option.map_some]
      refine ⟨cur :: ts', rfl, ⟨?_, ?_⟩, by simp, ?_, fun k => ?_⟩
      · intro t ht
        rcases List.mem_cons.mp ht with rfl | ht
        · exact hc
        · exact hw.1 t ht
      · rw [List.pairwise_cons]
        refine ⟨fun t' ht' => ?_, hw.2⟩
        rcases hk t' ht' with hk | ⟨t, ht, hk⟩
        · exact tlt_congr rfl hk.symm h2
        · exact tlt_congr rfl hk.symm (hp.1 t ht)
      · intro t' ht'
        rcases List.mem_cons.mp ht' with rfl | ht'
        · exact Or.inr ⟨_, by simp, rfl⟩
        · rcases hk t' ht' with hk | ⟨t, ht, hk⟩
          · exact Or.inl hk
          · exact Or.inr ⟨t, by simp [ht], hk⟩
      · rw [coefAt_cons, hs, coefAt_cons, add_assoc]
    · rw [h1]
      refine ⟨_, rfl, ⟨?_, ?_⟩, by simp, ?_, fun k => ?_⟩
      · intro t ht
        rcases List.mem_cons.mp ht with rfl | ht
        · exact hc
        · exact hlen t (by simp [ht])
      · rw [List.pairwise_cons]
        exact ⟨fun t ht => tlt_congr rfl rfl (hp.1 t ht), hp.2⟩
      · intro t' ht'
        rcases List.mem_cons.mp ht' with rfl | ht'
        · exact Or.inr ⟨cur, by simp, rfl⟩
        · exact Or.inr ⟨t', by simp [ht'], rfl⟩
      · rw [coefAt_cons, coefAt_cons, ← h2]
        have : one (Term.key { coef := cur.coef + new.coef, exps := cur.exps, degree := cur.degree })
            (cur.coef + new.coef) k = one cur.key cur.coef k + one cur.key new.coef k := by
          show one cur.key (cur.coef + new.coef) k = _
          unfold one
          split <;> simp
        show one (Term.key { coef := cur.coef + new.coef, exps := cur.exps, degree := cur.degree })
            (cur.coef + new.coef) k + coefAt k rest = _
        rw [this]
        abel
    · rw [h1]
      refine ⟨_, rfl, ⟨?_, ?_⟩, by simp, ?_, fun k => ?_⟩
      · intro t ht
        rcases List.mem_cons.mp ht with rfl | ht
        · exact hn
        · exact hlen t ht
      · rw [List.pairwise_cons]
        refine ⟨fun t ht => ?_, List.pairwise_cons.mpr hp⟩
        rcases List.mem_cons.mp ht with rfl | ht
        · exact h2
        · exact tlt_trans h2 (hp.1 t ht)
      · intro t' ht'
        rcases List.mem_cons.mp ht' with rfl | ht'
        · exact Or.inl rfl
        · exact Or.inr ⟨t', ht', rfl⟩
      · rw [coefAt_cons, add_comm]

omit [DecidableEq T] in
theorem contInsert_eq (n : ℕ) (new : Term T) (hn : new.exps.length = n) (ts : List (Term T))
    (h : ContWF n ts) : contInsert new ts = insertAfter new ts := by
  cases ts with
  | nil => rfl
  | cons first rest =>
    have hc : first.exps.length = n := h.1 first (by simp)
    have hirr : ∀ a b : Term T, tlt a b → tlt b a → False := by
      intro a b h1 h2
      rcases tlt_trans h1 h2 with h | ⟨_, h⟩
      · exact lt_irrefl _ h
      · exact lex_irrefl h
    have hke : ∀ a b : Term T, tlt a b → a.key = b.key → False := by
      intro a b h1 h2
      exact hirr a b h1 (tlt_congr h2 h2.symm h1)
    rcases lessThan_spec new first (hn.trans hc.symm) with ⟨h1, h2⟩ | ⟨h1, h2⟩ | ⟨h1, h2⟩ <;>
      rcases lessThan_spec first new (hc.trans hn.symm) with ⟨g1, g2⟩ | ⟨g1, g2⟩ | ⟨g1, g2⟩
    · exact (hirr _ _ h2 g2).elim
    · exact (hke _ _ h2 g2.symm).elim
    · simp only [contInsert, insertAfter, h1, g1]
    · exact (hke _ _ g2 h2.symm).elim
    · simp only [contInsert, insertAfter, h1, g1]
    · exact (hke _ _ g2 h2).elim
    · simp only [contInsert, insertAfter, h1, g1]
    · exact (hke _ _ h2 g2).elim
    · exact (hirr _ _ h2 g2).elim

omit [DecidableEq T] in
theorem contInsert_spec (n : ℕ) (new : Term T) (hn : new.exps.length = n) (ts : List (Term T))
    (h : ContWF n ts) :
    ∃ ts', contInsert new ts = some ts' ∧ ContWF n ts' ∧ ts' ≠ [] ∧
      ∀ k, coefAt k ts' = coefAt k ts + one new.key new.coef k := by
  rw [contInsert_eq n new hn ts h]
  obtain ⟨ts', e, h1, h2, -, h3⟩ := insertAfter_spec n new hn ts h
  exact ⟨ts', e, h1, h2, h3⟩

/-! ## Tries -/

/-- The elements of a trie in a row. -/
def flatList (f : Elem T → List (Term T)) : ℤ → List (Elem T) → List (Term T)
  | _, [] => []
  | x, e :: es => (f e).map (pre x) ++ flatList f (x + 1) es

/-- All stored terms below an element, with the exponents not yet used up, in storage order. -/
def flat : ℕ → Elem T → List (Term T)
  | _, .cont ts => ts
  | 0, .trie _ _ _ => []
  | n + 1, .trie lo _ es => flatList (flat n) lo es

/-- An element in use. -/
def Elem.inUse : Elem T → Prop
  | .cont ts => ts ≠ []
  | .trie _ _ _ => True

/-- Well-formed elements with `n` exponents left. -/
def WF : ℕ → Elem T → Prop
  | n, .cont ts => ContWF n ts
  | 0, .trie _ _ _ => False
  | n + 1, .trie lo hi es => hi = lo + es.length - 1 ∧ (∀ e ∈ es, WF n e) ∧
      ∃ e es', es = e :: es' ∧ e.inUse

/-- The trie as an element. -/
def Root.elem (t : Root T) : Elem T := .trie t.lo t.hi t.elems

/-- A possibly fresh trie. -/
def OWF (n : ℕ) : Option (Root T) → Prop
  | none => True
  | some t => WF n t.elem

/-- All terms of a possibly fresh trie. -/
def oflat (n : ℕ) : Option (Root T) → List (Term T)
  | none => []
  | some t => flat n t.elem

omit [AddCommMonoid T] [DecidableEq T] in
theorem flatList_append (f : Elem T → List (Term T)) (x : ℤ) (a b : List (Elem T)) :
    flatList f x (a ++ b) = flatList f x a ++ flatList f (x + a.length) b := by
  induction a generalizing x with
  | nil => simp [flatList]
  | cons e es ih =>
    simp only [List.cons_append, flatList, ih, List.append_assoc, List.length_cons]
    congr 3
    push_cast
    ring

omit [AddCommMonoid T] [DecidableEq T] in
theorem flatList_fresh (n : ℕ) (x : ℤ) (k : ℕ) :
    flatList (flat n) x (fresh T k) = [] := by
  unfold fresh
  induction k generalizing x with
  | zero => rfl
  | succ k ih =>
    rw [List.replicate_succ, flatList, ih]
    cases n <;> rfl

omit [DecidableEq T] in
theorem flatList_set (f : Elem T → List (Term T)) (d : ℤ) (rest : List ℤ) (c : T) (e e' : Elem T)
    (h : ∀ k, coefAt k (f e') = coefAt k (f e) + one (d, rest) c k) (es : List (Elem T)) (i : ℕ)
    (hi : es[i]? = some e) (x : ℤ) (k : Key) :
    coefAt k (flatList f x (es.set i e')) =
      coefAt k (flatList f x es) + one (d, (x + i) :: rest) c k := by
  induction es generalizing i x with
  | nil => simp at hi
  | cons a es ih =>
    cases i with
    | zero =>
      simp only [List.getElem?_cons_zero, Option.some.injEq] at hi
      subst hi
      simp only [List.set_cons_zero, flatList, coefAt_append]
      rw [coefAt_pre_add x (f a) (f e') d rest c h]
      simp only [Nat.cast_zero, add_zero]
      abel
    | succ i =>
      simp only [List.getElem?_cons_succ] at hi
      simp only [List.set_cons_succ, flatList, coefAt_append]
      rw [ih i hi (x + 1), ← add_assoc]
      have : x + 1 + (i : ℤ) = x + ((i + 1 : ℕ) : ℤ) := by push_cast; ring
      rw [this]

/-- A trie ready for the insertion at `e`. -/
def Ready (n : ℕ) (e : ℤ) (t : Root T) : Prop :=
  t.hi = t.lo + t.elems.length - 1 ∧ (∀ a ∈ t.elems, WF n a) ∧ t.lo ≤ e ∧ e ≤ t.hi ∧
    (t.lo = e ∨ ∃ a es', t.elems = a :: es' ∧ a.inUse)

omit [AddCommMonoid T] [DecidableEq T] in
theorem fresh_wf (n k : ℕ) : ∀ a ∈ fresh T k, WF n a := by
  intro a ha
  unfold fresh at ha
  rw [List.mem_replicate] at ha
  rw [ha.2]
  cases n <;> exact ⟨by simp, by simp⟩

omit [AddCommMonoid T] [DecidableEq T] in
theorem prepare_spec (n : ℕ) (e : ℤ) (t : Option (Root T)) (h : OWF (n + 1) t) :
    ∃ t', prepare e t = some t' ∧ Ready n e t' ∧
      flatList (flat n) t'.lo t'.elems = oflat (n + 1) t := by
  cases t with
  | none =>
    refine ⟨_, rfl, ⟨by simp, ?_, le_rfl, le_rfl, Or.inl rfl⟩, ?_⟩
    · exact fresh_wf n 1
    · exact flatList_fresh n e 1
  | some t =>
    obtain ⟨hhi, hwf, a, es', hes, hu⟩ := h
    simp only [prepare, checkRange]
    by_cases h1 : e < t.lo
    · rw [if_pos h1]
      refine ⟨_, rfl, ⟨?_, ?_, le_rfl, ?_, Or.inl rfl⟩, ?_⟩
      · simp only [List.length_append, List.length_cons, fresh, List.length_replicate]
        rw [hhi]
        omega
      · intro b hb
        simp only [List.cons_append, List.mem_cons, List.mem_append] at hb
        rcases hb with rfl | hb | hb
        · exact fresh_wf n 1 _ (by simp [fresh])
        · exact fresh_wf n _ b hb
        · exact hwf b hb
      · have : t.elems.length = es'.length + 1 := by rw [hes]; rfl
        show e ≤ t.hi
        rw [hhi]
        omega
      · show flatList (flat n) e ((fresh T 1 ++ fresh T (t.lo - (e + 1)).toNat) ++ t.elems) = _
        rw [flatList_append, flatList_append, flatList_fresh, flatList_fresh]
        have : e + (fresh T 1 ++ fresh T (t.lo - (e + 1)).toNat).length = t.lo := by
          simp only [fresh, List.length_append, List.length_replicate]
          omega
        rw [this]
        rfl
    · rw [if_neg h1]
      have hlen : (t.hi - t.lo).toNat + 1 = t.elems.length := by
        have : t.elems.length = es'.length + 1 := by rw [hes]; rfl
        omega
      by_cases h2 : e > t.hi
      · rw [if_pos h2, if_neg]
        · have htake : t.elems.take ((t.hi - t.lo).toNat + 1) = t.elems := by
            rw [hlen]; exact List.take_length
          rw [htake]
          refine ⟨_, rfl, ⟨?_, ?_, not_lt.mp h1, le_rfl, Or.inr ⟨a, es' ++ fresh T (e - t.hi).toNat, ?_, hu⟩⟩, ?_⟩
          · show e = t.lo + (t.elems ++ fresh T (e - t.hi).toNat).length - 1
            simp only [List.length_append, fresh, List.length_replicate]
            omega
          · intro b hb
            rcases List.mem_append.mp hb with hb | hb
            · exact hwf b hb
            · exact fresh_wf n _ b hb
          · show t.elems ++ _ = _
            rw [hes]; rfl
          · show flatList (flat n) t.lo (t.elems ++ fresh T (e - t.hi).toNat) = _
            rw [flatList_append, flatList_fresh, List.append_nil]
            rfl
        · simp
          omega
      · rw [if_neg h2]
        exact ⟨t, rfl, ⟨hhi, hwf, not_lt.mp h1, not_lt.mp h2, Or.inr ⟨a, es', hes, hu⟩⟩, rfl⟩

omit [AddCommMonoid T] [DecidableEq T] in
theorem wf_set (n : ℕ) (e : ℤ) (t : Root T) (h : Ready n e t) (x : Elem T) (hx : WF n x)
    (hu : x.inUse) :
    WF (n + 1) (Root.elem { t with elems := t.elems.set (e - t.lo).toNat x }) := by
  obtain ⟨h1, h2, h3, h4, h5⟩ := h
  refine ⟨?_, ?_, ?_⟩
  · show t.hi = t.lo + (t.elems.set (e - t.lo).toNat x).length - 1
    rw [List.length_set]; exact h1
  · intro a ha
    rcases List.mem_or_eq_of_mem_set ha with ha | rfl
    · exact h2 a ha
    · exact hx
  · cases hes : t.elems with
    | nil => rw [hes] at h1; simp at h1; omega
    | cons a es =>
      rcases h5 with h5 | ⟨b, es', h5, hb⟩
      · have : (e - t.lo).toNat = 0 := by omega
        rw [this]
        exact ⟨x, es, rfl, hu⟩
      · rw [hes] at h5
        cases h5
        cases hi : (e - t.lo).toNat with
        | zero => exact ⟨x, es, rfl, hu⟩
        | succ i => exact ⟨a, es.set i x, rfl, hb⟩

omit [DecidableEq T] in
theorem insertTrie_spec (n : ℕ) : ∀ (c : T) (d : ℤ) (exps : List ℤ) (t : Option (Root T)),
    exps.length = n + 1 → OWF (n + 1) t →
    ∃ r, insertTrie (n + 1) c d exps t = some r ∧ WF (n + 1) r.elem ∧
      ∀ k, coefAt k (flat (n + 1) r.elem) = coefAt k (oflat (n + 1) t) + one (d, exps) c k := by
  induction n with
  | zero =>
    intro c d exps t hl ht
    obtain ⟨e, rfl⟩ : ∃ e, exps = [e] := by
      match exps, hl with
      | [e], _ => exact ⟨e, rfl⟩
    obtain ⟨t', hp, hr, hf⟩ := prepare_spec 0 e t ht
    unfold insertTrie
    simp only [hp]
    have hlt : (e - t'.lo).toNat < t'.elems.length := by
      obtain ⟨h1, -, h3, h4, -⟩ := hr
      omega
    have hget : t'.elems[(e - t'.lo).toNat]? = some t'.elems[(e - t'.lo).toNat] :=
      List.getElem?_eq_getElem hlt
    have hw := hr.2.1 _ (List.getElem_mem hlt)
    rw [hget]
    cases hel : t'.elems[(e - t'.lo).toNat] with
    | trie lo hi es => rw [hel] at hw; exact absurd hw (by simp [WF])
    | cont ts =>
      rw [hel] at hw hget
      simp only
      rw [if_neg (by omega)]
      obtain ⟨ts', e1, e2, e3, e4⟩ := contInsert_spec 0 ⟨c, [], d⟩ rfl ts hw
      rw [e1]
      refine ⟨_, rfl, wf_set 0 e t' hr (.cont ts') e2 e3, fun k => ?_⟩
      show coefAt k (flatList (flat 0) t'.lo (t'.elems.set (e - t'.lo).toNat (.cont ts'))) = _
      rw [flatList_set (flat 0) d [] c (.cont ts) (.cont ts') (fun k => e4 k) _ _ hget, hf]
      congr 3
      have := hr.2.2.1
      congr 1
      omega
  | succ n ih =>
    intro c d exps t hl ht
    obtain ⟨e, rest, rfl⟩ : ∃ e rest, exps = e :: rest := by
      match exps, hl with
      | e :: rest, _ => exact ⟨e, rest, rfl⟩
    have hrest : rest.length = n + 1 := by simpa using hl
    obtain ⟨t', hp, hr, hf⟩ := prepare_spec (n + 1) e t ht
    have hlo := hr.2.2.1
    have hlt : (e - t'.lo).toNat < t'.elems.length := by
      obtain ⟨h1, -, h3, h4, -⟩ := hr
      omega
    have hget : t'.elems[(e - t'.lo).toNat]? = some t'.elems[(e - t'.lo).toNat] :=
      List.getElem?_eq_getElem hlt
    have hw := hr.2.1 _ (List.getElem_mem hlt)
    have hx : t'.lo + ((e - t'.lo).toNat : ℕ) = e := by omega
    conv in insertTrie _ _ _ _ _ => unfold insertTrie
    simp only [hp]
    rw [hget]
    cases hel : t'.elems[(e - t'.lo).toNat] with
    | trie lo hi es =>
      rw [hel] at hw hget
      obtain ⟨r, e1, e2, e3⟩ := ih c d rest (some ⟨lo, hi, es⟩) hrest hw
      simp only [e1, Option.map_some]
      refine ⟨_, rfl, wf_set (n + 1) e t' hr (.trie r.lo r.hi r.elems) e2 trivial, fun k => ?_⟩
      show coefAt k (flatList (flat (n + 1)) t'.lo
        (t'.elems.set (e - t'.lo).toNat (.trie r.lo r.hi r.elems))) = _
      rw [flatList_set (flat (n + 1)) d rest c (.trie lo hi es) (.trie r.lo r.hi r.elems)
        (fun k => e3 k) _ _ hget, hf, hx]
    | cont ts =>
      rw [hel] at hw hget
      simp only
      by_cases hb : ts.length = burstMax ∧ n + 1 + 1 > 1
      · rw [if_pos hb]
        -- bursting
        have hfold : ∀ (l : List (Term T)) (r0 : Option (Root T)), OWF (n + 1) r0 →
            (∀ x ∈ l, x.exps.length = n + 1) →
            ∃ r, l.foldl (fun (acc : Option (Option (Root T))) x =>
              acc.bind fun r => (insertTrie (n + 1) x.coef x.degree x.exps r).map some) (some r0) =
                some r ∧ OWF (n + 1) r ∧
              ∀ k, coefAt k (oflat (n + 1) r) = coefAt k (oflat (n + 1) r0) + coefAt k l := by
          intro l
          induction l with
          | nil => intro r0 h0 _; exact ⟨r0, rfl, h0, by simp⟩
          | cons x l ihl =>
            intro r0 h0 hlen
            obtain ⟨r1, a1, a2, a3⟩ := ih x.coef x.degree x.exps r0 (hlen x (by simp)) h0
            rw [List.foldl_cons]
            simp only [Option.bind_some, a1, Option.map_some]
            obtain ⟨r, b1, b2, b3⟩ := ihl (some r1) a2 (fun y hy => hlen y (by simp [hy]))
            refine ⟨r, b1, b2, fun k => ?_⟩
            rw [b3, coefAt_cons, ← add_assoc]
            congr 1
            exact a3 k
        obtain ⟨r0, c1, c2, c3⟩ := hfold ts none trivial hw.1
        rw [c1]
        obtain ⟨r, e1, e2, e3⟩ := ih c d rest r0 hrest c2
        simp only [Option.bind_some, e1, Option.map_some]
        refine ⟨_, rfl, wf_set (n + 1) e t' hr (.trie r.lo r.hi r.elems) e2 trivial, fun k => ?_⟩
        show coefAt k (flatList (flat (n + 1)) t'.lo
          (t'.elems.set (e - t'.lo).toNat (.trie r.lo r.hi r.elems))) = _
        rw [flatList_set (flat (n + 1)) d rest c (.cont ts) (.trie r.lo r.hi r.elems)
          (fun k => by
            rw [show flat (n + 1) (.trie r.lo r.hi r.elems) = flat (n + 1) r.elem from rfl, e3 k, c3 k]
            simp [oflat, flat]) _ _ hget, hf, hx]
      · rw [if_neg hb]
        obtain ⟨ts', e1, e2, e3, e4⟩ := contInsert_spec (n + 1) ⟨c, rest, d⟩ hrest ts hw
        rw [e1]
        refine ⟨_, rfl, wf_set (n + 1) e t' hr (.cont ts') e2 e3, fun k => ?_⟩
        show coefAt k (flatList (flat (n + 1)) t'.lo (t'.elems.set (e - t'.lo).toNat (.cont ts'))) = _
        rw [flatList_set (flat (n + 1)) d rest c (.cont ts) (.cont ts') (fun k => e4 k) _ _ hget, hf,
          hx]

end Verif.Trie
