import Verif.Block.Model
import Mathlib.Tactic.Ring
import Mathlib.Tactic.Linarith

/-!
# Block storage: lemmas
-/

namespace Verif.Block

open Verif.Trie

/-! ## Arrays -/

theorem writeAt_spec (es : List ℤ) : ∀ (blk : List ℤ) (off : ℕ), off + es.length ≤ blk.length →
    ∃ blk', writeAt blk off es = some blk' ∧ blk'.length = blk.length ∧
      ∀ m, blk'[m]? = if off ≤ m ∧ m < off + es.length then es[m - off]? else blk[m]? := by
  induction es with
  | nil =>
    intro blk off _
    refine ⟨blk, rfl, rfl, fun m => ?_⟩
    rw [if_neg]; simp
  | cons e es ih =>
    intro blk off h
    simp only [List.length_cons] at h
    have hl : off < blk.length := by omega
    obtain ⟨blk', e1, e2, e3⟩ := ih (blk.set off e) (off + 1) (by simp; omega)
    refine ⟨blk', by rw [writeAt, if_pos hl, e1], by simpa using e2, fun m => ?_⟩
    rw [e3 m]
    simp only [List.length_cons]
    by_cases h1 : off + 1 ≤ m ∧ m < off + 1 + es.length
    · rw [if_pos h1, if_pos (by omega)]
      rw [show m - off = (m - (off + 1)) + 1 by omega, List.getElem?_cons_succ]
    · rw [if_neg h1]
      by_cases h2 : m = off
      · subst h2
        rw [if_pos (by omega)]
        simp [hl]
      · rw [if_neg (by omega), List.getElem?_set_ne (fun h => h2 h.symm)]

theorem readAt_eq (blk : List ℤ) (es : List ℤ) : ∀ off : ℕ,
    (∀ j, j < es.length → blk[off + j]? = es[j]?) → readAt blk off es.length = some es := by
  induction es with
  | nil => intro off _; rfl
  | cons e es ih =>
    intro off h
    have h0 := h 0 (by simp)
    simp only [Nat.add_zero, List.getElem?_cons_zero] at h0
    rw [List.length_cons, readAt, h0]
    simp only
    rw [ih (off + 1)]
    · rfl
    · intro j hj
      have := h (j + 1) (by simp; omega)
      rw [List.getElem?_cons_succ] at this
      rw [← this]; congr 1; omega

theorem readAt_congr (a b : List ℤ) (n : ℕ) : ∀ off : ℕ,
    (∀ j, j < n → a[off + j]? = b[off + j]?) → readAt a off n = readAt b off n := by
  induction n with
  | zero => intro off _; rfl
  | succ n ih =>
    intro off h
    have h0 := h 0 (by omega)
    simp only [Nat.add_zero] at h0
    rw [readAt, readAt, h0, ih (off + 1)]
    intro j hj
    have := h (j + 1) (by omega)
    rw [show off + 1 + j = off + (j + 1) by omega, this]

theorem readAt_inv (blk : List ℤ) (n : ℕ) : ∀ (off : ℕ) (es : List ℤ), readAt blk off n = some es →
    es.length = n ∧ ∀ j, j < n → blk[off + j]? = es[j]? := by
  induction n with
  | zero =>
    intro off es h
    simp only [readAt, Option.some.injEq] at h
    subst h
    exact ⟨rfl, fun j hj => by omega⟩
  | succ n ih =>
    intro off es h
    rw [readAt] at h
    split at h
    · cases h
    · rename_i x hx
      cases hr : readAt blk (off + 1) n with
      | none => rw [hr] at h; cases h
      | some es' =>
        rw [hr] at h
        simp only [Option.map_some, Option.some.injEq] at h
        subst h
        obtain ⟨h1, h2⟩ := ih (off + 1) es' hr
        refine ⟨by simp [h1], fun j hj => ?_⟩
        cases j with
        | zero => simpa using hx
        | succ j =>
          rw [List.getElem?_cons_succ, ← h2 j (by omega)]
          congr 1; omega

theorem matchAt_eq (blk es' es : List ℤ) (hl : es'.length = es.length) : ∀ off : ℕ,
    (∀ j, j < es'.length → blk[off + j]? = es'[j]?) →
    matchAt blk off es = some (decide (es' = es)) := by
  induction es generalizing es' with
  | nil =>
    intro off _
    have : es' = [] := List.length_eq_zero_iff.mp hl
    subst this; rfl
  | cons e es ih =>
    intro off h
    obtain ⟨x, xs, rfl⟩ : ∃ x xs, es' = x :: xs := by
      cases es' with
      | nil => simp at hl
      | cons x xs => exact ⟨x, xs, rfl⟩
    have h0 := h 0 (by simp)
    simp only [Nat.add_zero, List.getElem?_cons_zero] at h0
    rw [matchAt, h0]
    simp only
    by_cases hx : x = e
    · subst hx
      rw [if_neg (by simp), ih xs (by simpa using hl) (off + 1)]
      · simp
      · intro j hj
        have := h (j + 1) (by simp; omega)
        rw [List.getElem?_cons_succ] at this
        rw [← this]; congr 1; omega
    · rw [if_pos hx]
      simp [hx]

/-! ## Layouts -/

/-- What is needed of a layout: blocks satisfying `wf` hold `BLOCK_SIZE` independent places for keys
satisfying `ok`. -/
structure Lawful {B : Type} (L : Layout B) where
  wf : B → Prop
  ok : Key → Prop
  wf_fresh : wf L.fresh
  put_ok : ∀ b i k, wf b → i < blockSize → ok k → ∃ b', L.put b i k = some b' ∧ wf b' ∧
    L.get b' i = some k ∧ ∀ j, j < blockSize → j ≠ i → L.get b' j = L.get b j
  same_ok : ∀ b i k k', wf b → i < blockSize → ok k → ok k' → L.get b i = some k' →
    L.same b i k = some (decide (k' = k))

theorem range_disjoint {v i j m : ℕ} (hij : j ≠ i) (h1 : j * v ≤ m) (h2 : m < j * v + v) :
    ¬ (i * v ≤ m ∧ m < i * v + v) := by
  rintro ⟨h3, h4⟩
  rcases Nat.lt_or_gt_of_ne hij with h | h
  · have := Nat.mul_le_mul_right v (show j + 1 ≤ i from h)
    rw [Nat.add_mul, Nat.one_mul] at this
    omega
  · have := Nat.mul_le_mul_right v (show i + 1 ≤ j from h)
    rw [Nat.add_mul, Nat.one_mul] at this
    omega

theorem place_le {v i : ℕ} (hi : i < blockSize) : i * v + v ≤ v * blockSize := by
  have := Nat.mul_le_mul_right v (show i + 1 ≤ blockSize from hi)
  rw [Nat.add_mul, Nat.one_mul] at this
  rw [Nat.mul_comm v]; exact this

/-- Exponent blocks are lawful. -/
def eLawful (v : ℕ) (junk : ℤ) : Lawful (eLayout v junk) where
  wf b := b.length = v * blockSize
  ok k := k.1 = -1 ∧ k.2.length = v
  wf_fresh := by simp [eLayout]
  put_ok := by
    rintro b i ⟨d, es⟩ hb hi ⟨hd, hl⟩
    simp only at hd hl
    obtain ⟨b', e1, e2, e3⟩ := writeAt_spec es b (i * v) (by rw [hl, hb]; exact place_le hi)
    refine ⟨b', e1, by rw [e2, hb], ?_, fun j hj hji => ?_⟩
    · have : readAt b' (i * v) es.length = some es := by
        apply readAt_eq
        intro j hj
        rw [e3, if_pos (by omega)]
        congr 1; omega
      rw [hl] at this
      simp only [eLayout, this, Option.map_some, hd]
    · simp only [eLayout]
      rw [readAt_congr b' b]
      intro m hm
      rw [e3, if_neg]
      rw [hl]
      exact range_disjoint hji (by omega) (by omega)
  same_ok := by
    rintro b i ⟨d, es⟩ ⟨d', es'⟩ hb hi ⟨hd, hl⟩ ⟨hd', hl'⟩ hg
    simp only at hd hl hd' hl'
    subst hd hd'
    simp only [eLayout] at hg ⊢
    cases hr : readAt b (i * v) v with
    | none => rw [hr] at hg; cases hg
    | some l =>
      rw [hr] at hg
      simp only [Option.map_some, Option.some.injEq, Prod.mk.injEq, true_and] at hg
      subst hg
      rw [matchAt_eq b l es (by omega)]
      · simp
      · intro j hj
        exact (readAt_inv b v _ l hr).2 j (by omega)

/-- Blocks of linear forms are lawful. -/
def lLawful (v : ℕ) (junk : ℤ) : Lawful (lLayout v junk) where
  wf b := b.data.length = blockSize ∧ b.degree.length = blockSize ∧ ∀ e ∈ b.data, e.length ≤ v
  ok k := k.2.length = v
  wf_fresh := by simp [lLayout]
  put_ok := by
    rintro b i ⟨d, es⟩ ⟨h1, h2, h3⟩ hi hl
    simp only at hl
    have ht : es.take v = es := List.take_of_length_le (by omega)
    refine ⟨⟨b.data.set i (es.take v), b.degree.set i d⟩, ?_, ?_, ?_, fun j hj hji => ?_⟩
    · simp only [lLayout]
      rw [if_pos ⟨by omega, by omega, by omega⟩]
    · refine ⟨by simp [h1], by simp [h2], fun e he => ?_⟩
      rcases List.mem_or_eq_of_mem_set he with h | h
      · exact h3 e h
      · rw [h, ht]; omega
    · simp only [lLayout]
      rw [List.getElem?_set_self (by omega), List.getElem?_set_self (by omega)]
      simp [hl, ht]
    · simp only [lLayout]
      rw [List.getElem?_set_ne (fun h => hji h.symm), List.getElem?_set_ne (fun h => hji h.symm)]
  same_ok := by
    rintro b i ⟨d, es⟩ ⟨d', es'⟩ ⟨h1, h2, h3⟩ hi hl hl' hg
    simp only at hl hl'
    simp only [lLayout] at hg ⊢
    have e1 : b.degree[i]? = some b.degree[i] := List.getElem?_eq_getElem (by omega)
    have e2 : b.data[i]? = some b.data[i] := List.getElem?_eq_getElem (by omega)
    rw [e1, e2] at hg ⊢
    simp only at hg ⊢
    split at hg
    · rename_i hv
      have := h3 b.data[i] (List.getElem_mem _)
      rw [List.take_of_length_le this] at hg
      simp only [Option.some.injEq, Prod.mk.injEq] at hg
      rw [hg.1, hg.2]
      simp only [Prod.mk.injEq, Bool.decide_and]
    · cases hg

/-! ## The store as a list of terms -/

section
variable {B T : Type} [AddCommMonoid T] {L : Layout B}

/-- The list of terms a store holds, in the order of first insertion. -/
structure Rep (W : Lawful L) (s : Store B T) (ts : List (Term T)) : Prop where
  count : s.termCount = ts.length
  keysLen : s.keys.length = (ts.length + 63) / 64
  coefsLen : s.coefs.length = (ts.length + 63) / 64
  wf : ∀ b ∈ s.keys, W.wf b
  cwf : ∀ c ∈ s.coefs, c.length = blockSize
  ok : ∀ t ∈ ts, W.ok t.key
  get : ∀ i t, ts[i]? = some t → ∃ b, s.keys[i / 64]? = some b ∧ L.get b (i % 64) = some t.key
  coef : ∀ i t, ts[i]? = some t → ∃ c, s.coefs[i / 64]? = some c ∧ c[i % 64]? = some t.coef

/-- **Specification of an insertion**: add to the coefficient of the first term with the same key, or
append. -/
def addTerm (x : Term T) : List (Term T) → List (Term T)
  | [] => [x]
  | t :: ts => if t.key = x.key then { t with coef := t.coef + x.coef } :: ts else t :: addTerm x ts

omit [AddCommMonoid T] in
theorem search_spec (W : Lawful L) (s : Store B T) (ts : List (Term T)) (h : Rep W s ts) (key : Key)
    (hk : W.ok key) : ∀ (k i b : ℕ), i + k = ts.length → b = (i - 1) / 64 → (i = 0 → b = 0) →
    (∃ j t, ts[j]? = some t ∧ i ≤ j ∧ t.key = key ∧ (∀ m u, i ≤ m → m < j → ts[m]? = some u → u.key ≠ key) ∧
      search L s.keys key k i b = some (some j, j / 64)) ∨
    ((∀ m u, i ≤ m → ts[m]? = some u → u.key ≠ key) ∧
      search L s.keys key k i b = some (none, (ts.length - 1) / 64)) := by
  intro k
  induction k with
  | zero =>
    intro i b hik hb _
    right
    refine ⟨fun m u hm hu => ?_, ?_⟩
    · have := (List.getElem?_eq_some_iff.mp hu).1; omega
    · rw [search, hb]; simp at hik; rw [hik]
  | succ k ih =>
    intro i b hik hb _
    have hi : i < ts.length := by omega
    have hti : ts[i]? = some ts[i] := List.getElem?_eq_getElem hi
    obtain ⟨blk, hblk, hget⟩ := h.get i _ hti
    have hb' : (if i > 0 ∧ i % blockSize = 0 then b + 1 else b) = i / 64 := by
      unfold blockSize
      split
      · omega
      · omega
    have hs := W.same_ok blk (i % 64) key ts[i].key (h.wf _ (List.mem_of_getElem? hblk))
      (Nat.mod_lt _ (by decide)) hk (h.ok _ (List.getElem_mem hi)) hget
    rw [search]
    simp only [hb', hblk]
    rw [show i % blockSize = i % 64 from rfl, hs]
    by_cases he : ts[i].key = key
    · left
      refine ⟨i, ts[i], hti, le_rfl, he, fun m u h1 h2 => by omega, ?_⟩
      simp [he]
    · rw [decide_eq_false he]
      simp only
      rcases ih (i + 1) (i / 64) (by omega) (by simp) (by omega) with ⟨j, t, a1, a2, a3, a4, a5⟩ | ⟨a1, a2⟩
      · left
        refine ⟨j, t, a1, by omega, a3, fun m u h1 h2 h3 => ?_, a5⟩
        rcases Nat.eq_or_lt_of_le h1 with rfl | h1
        · rw [hti] at h3; cases h3; exact he
        · exact a4 m u h1 h2 h3
      · right
        refine ⟨fun m u h1 h3 => ?_, a2⟩
        rcases Nat.eq_or_lt_of_le h1 with rfl | h1
        · rw [hti] at h3; cases h3; exact he
        · exact a1 m u h1 h3

theorem addTerm_found (x : Term T) : ∀ (ts : List (Term T)) (j : ℕ) (t : Term T), ts[j]? = some t →
    t.key = x.key → (∀ (m : ℕ) (u : Term T), m < j → ts[m]? = some u → u.key ≠ x.key) →
    addTerm x ts = ts.set j { t with coef := t.coef + x.coef } := by
  intro ts
  induction ts with
  | nil => intro j t h; simp at h
  | cons u us ih =>
    intro j t h hk hn
    cases j with
    | zero =>
      simp only [List.getElem?_cons_zero, Option.some.injEq] at h
      subst h
      rw [addTerm, if_pos hk]; rfl
    | succ j =>
      rw [addTerm, if_neg (hn 0 u (by omega) (by simp)), ih j t (by simpa using h) hk]
      · rfl
      · intro m w hm hw
        exact hn (m + 1) w (by omega) (by simpa using hw)

theorem addTerm_new (x : Term T) : ∀ (ts : List (Term T)),
    (∀ (m : ℕ) (u : Term T), ts[m]? = some u → u.key ≠ x.key) → addTerm x ts = ts ++ [x] := by
  intro ts
  induction ts with
  | nil => intro _; rfl
  | cons u us ih =>
    intro hn
    rw [addTerm, if_neg (hn 0 u (by simp)), ih fun m w hw => hn (m + 1) w (by simpa using hw)]
    rfl

omit [AddCommMonoid T] in
theorem modifyCoef_ok (coefs : List (List T)) (b i : ℕ) (c : List T) (x : T) (f : T → T)
    (h1 : coefs[b]? = some c) (h2 : c[i]? = some x) :
    modifyCoef coefs b i f = some (coefs.set b (c.set i (f x))) := by
  unfold modifyCoef
  rw [h1]; simp only; rw [h2]

omit [AddCommMonoid T] in
/-- Storing a new term behind `ts` when block `ts.length / 64` exists. -/
theorem store_ok (W : Lawful L) (s : Store B T) (ts : List (Term T)) (x : Term T)
    (hc : s.termCount = ts.length) (hk : s.keys.length = ts.length / 64 + 1)
    (hcl : s.coefs.length = ts.length / 64 + 1)
    (hw : ∀ b ∈ s.keys, W.wf b) (hcw : ∀ c ∈ s.coefs, c.length = blockSize)
    (ho : ∀ t ∈ ts, W.ok t.key) (hx : W.ok x.key)
    (hg : ∀ i t, ts[i]? = some t → ∃ b, s.keys[i / 64]? = some b ∧ L.get b (i % 64) = some t.key)
    (hco : ∀ i t, ts[i]? = some t → ∃ c, s.coefs[i / 64]? = some c ∧ c[i % 64]? = some t.coef) :
    ∃ s', store L s (ts.length / 64) x.coef x.key = some s' ∧ Rep W s' (ts ++ [x]) := by
  have hkb : s.keys[ts.length / 64]? = some (s.keys[ts.length / 64]'(by omega)) :=
    List.getElem?_eq_getElem (by omega)
  have hcb : s.coefs[ts.length / 64]? = some (s.coefs[ts.length / 64]'(by omega)) :=
    List.getElem?_eq_getElem (by omega)
  generalize s.keys[ts.length / 64]'(by omega) = blk at hkb
  generalize s.coefs[ts.length / 64]'(by omega) = cb at hcb
  have hmod : ts.length % 64 < blockSize := Nat.mod_lt _ (by decide)
  obtain ⟨blk', p1, p2, p3, p4⟩ := W.put_ok blk (ts.length % 64) x.key
    (hw _ (List.mem_of_getElem? hkb)) hmod hx
  have hcbl : cb.length = blockSize := hcw _ (List.mem_of_getElem? hcb)
  have hcbi : cb[ts.length % 64]? = some (cb[ts.length % 64]'(by omega)) :=
    List.getElem?_eq_getElem (by omega)
  refine ⟨⟨ts.length + 1, s.keys.set (ts.length / 64) blk',
    s.coefs.set (ts.length / 64) (cb.set (ts.length % 64) x.coef)⟩, ?_, ?_⟩
  · unfold store
    rw [hkb]
    simp only
    rw [hc, show ts.length % blockSize = ts.length % 64 from rfl, p1]
    simp only
    rw [modifyCoef_ok _ _ _ _ _ _ hcb hcbi]
    rfl
  · refine ⟨by simp, by simp; omega, by simp; omega, ?_, ?_, ?_, ?_, ?_⟩
    · intro b hb
      rcases List.mem_or_eq_of_mem_set hb with h | h
      · exact hw b h
      · rw [h]; exact p2
    · intro c hc'
      rcases List.mem_or_eq_of_mem_set hc' with h | h
      · exact hcw c h
      · rw [h]; simpa using hcbl
    · intro t ht
      rcases List.mem_append.mp ht with h | h
      · exact ho t h
      · simp only [List.mem_singleton] at h; rw [h]; exact hx
    · intro i t hi
      rcases Nat.lt_or_ge i ts.length with hlt | hge
      · rw [List.getElem?_append_left hlt] at hi
        obtain ⟨b, g1, g2⟩ := hg i t hi
        by_cases hb : i / 64 = ts.length / 64
        · rw [hb] at g1 ⊢
          rw [hkb] at g1
          cases g1
          refine ⟨blk', by simp only; rw [List.getElem?_set_self (by omega)], ?_⟩
          rw [p4 (i % 64) (Nat.mod_lt _ (by decide)) (by omega)]
          exact g2
        · refine ⟨b, by simp only; rw [List.getElem?_set_ne (fun h => hb h.symm)]; exact g1, g2⟩
      · rw [List.getElem?_append_right hge] at hi
        have : i = ts.length := by
          have := (List.getElem?_eq_some_iff.mp hi).1
          simp at this; omega
        subst this
        simp only [Nat.sub_self, List.getElem?_cons_zero, Option.some.injEq] at hi
        subst hi
        exact ⟨blk', by simp only; rw [List.getElem?_set_self (by omega)], p3⟩
    · intro i t hi
      rcases Nat.lt_or_ge i ts.length with hlt | hge
      · rw [List.getElem?_append_left hlt] at hi
        obtain ⟨b, g1, g2⟩ := hco i t hi
        by_cases hb : i / 64 = ts.length / 64
        · rw [hb] at g1 ⊢
          rw [hcb] at g1
          cases g1
          refine ⟨_, by simp only; rw [List.getElem?_set_self (by omega)], ?_⟩
          rw [List.getElem?_set_ne (by omega)]
          exact g2
        · refine ⟨b, by simp only; rw [List.getElem?_set_ne (fun h => hb h.symm)]; exact g1, g2⟩
      · rw [List.getElem?_append_right hge] at hi
        have : i = ts.length := by
          have := (List.getElem?_eq_some_iff.mp hi).1
          simp at this; omega
        subst this
        simp only [Nat.sub_self, List.getElem?_cons_zero, Option.some.injEq] at hi
        subst hi
        exact ⟨_, by simp only; rw [List.getElem?_set_self (by omega)],
          by rw [List.getElem?_set_self (by omega)]⟩

theorem insert_ok (W : Lawful L) (s : Store B T) (ts : List (Term T)) (h : Rep W s ts) (x : Term T)
    (hx : W.ok x.key) : ∃ s', insert L s x = some s' ∧ Rep W s' (addTerm x ts) := by
  unfold insert
  by_cases h0 : s.termCount > 0
  · rw [if_pos h0]
    have hpos : 0 < ts.length := by rw [← h.count]; exact h0
    rcases search_spec W s ts h x.key hx s.termCount 0 0 (by rw [h.count]; omega) (by simp)
      (by simp) with ⟨j, t, a1, _, a3, a4, a5⟩ | ⟨a1, a2⟩
    · rw [a5]
      simp only
      obtain ⟨c, c1, c2⟩ := h.coef j t a1
      rw [show j % blockSize = j % 64 from rfl, modifyCoef_ok _ _ _ _ _ _ c1 c2,
        addTerm_found x ts j t a1 a3 (fun m u hm hu => a4 m u (by omega) hm hu)]
      have hj := (List.getElem?_eq_some_iff.mp a1).1
      have hjk : ∀ (i : ℕ) (u : Term T), (ts.set j { t with coef := t.coef + x.coef })[i]? = some u →
          ∃ u' : Term T, ts[i]? = some u' ∧ u'.key = u.key := by
        intro i u hu
        by_cases hij : j = i
        · subst hij
          rw [List.getElem?_set_self hj] at hu
          cases hu
          exact ⟨t, a1, rfl⟩
        · rw [List.getElem?_set_ne hij] at hu
          exact ⟨u, hu, rfl⟩
      refine ⟨_, rfl, ⟨by simpa using h.count, by simpa using h.keysLen, by simpa using h.coefsLen,
        h.wf, ?_, ?_, ?_, ?_⟩⟩
      · intro c' hc'
        rcases List.mem_or_eq_of_mem_set hc' with hm | hm
        · exact h.cwf c' hm
        · rw [hm]; simpa using h.cwf c (List.mem_of_getElem? c1)
      · intro u hu
        rcases List.mem_or_eq_of_mem_set hu with hm | hm
        · exact h.ok u hm
        · rw [hm]; exact h.ok t (List.mem_of_getElem? a1)
      · intro i u hu
        obtain ⟨u', e1, e2⟩ := hjk i u hu
        rw [← e2]
        exact h.get i u' e1
      · intro i u hu
        by_cases hij : j = i
        · subst hij
          rw [List.getElem?_set_self hj] at hu
          cases hu
          refine ⟨_, by simp only; rw [List.getElem?_set_self]; exact (List.getElem?_eq_some_iff.mp c1).1, ?_⟩
          rw [List.getElem?_set_self (List.getElem?_eq_some_iff.mp c2).1]
        · rw [List.getElem?_set_ne hij] at hu
          obtain ⟨b, g1, g2⟩ := h.coef i u hu
          by_cases hb : i / 64 = j / 64
          · rw [hb] at g1 ⊢
            rw [c1] at g1
            cases g1
            refine ⟨_, by simp only; rw [List.getElem?_set_self]; exact (List.getElem?_eq_some_iff.mp c1).1, ?_⟩
            rw [List.getElem?_set_ne (by omega)]
            exact g2
          · exact ⟨b, by simp only; rw [List.getElem?_set_ne (fun h => hb h.symm)]; exact g1, g2⟩
    · rw [a2]
      simp only
      rw [addTerm_new x ts (fun m u hu => a1 m u (by omega) hu)]
      rw [h.count, show ts.length % blockSize = ts.length % 64 from rfl]
      have hkl := h.keysLen
      have hcl := h.coefsLen
      by_cases hm : ts.length % 64 = 0
      · rw [if_pos hm, if_pos (by omega)]
        have hb : (ts.length - 1) / 64 + 1 = ts.length / 64 := by omega
        rw [hb]
        have ek : s.keys.take (ts.length / 64) = s.keys := List.take_of_length_le (by omega)
        have ec : s.coefs.take (ts.length / 64) = s.coefs := List.take_of_length_le (by omega)
        rw [ek, ec]
        apply store_ok W _ ts x
        · rfl
        · simp; omega
        · simp; omega
        · intro b hb'
          rcases List.mem_append.mp hb' with hm | hm
          · exact h.wf b hm
          · simp only [List.mem_singleton] at hm; rw [hm]; exact W.wf_fresh
        · intro b hb'
          rcases List.mem_append.mp hb' with hm | hm
          · exact h.cwf b hm
          · simp only [List.mem_singleton] at hm; rw [hm]; simp
        · exact h.ok
        · exact hx
        · intro i t hi
          obtain ⟨b, g1, g2⟩ := h.get i t hi
          refine ⟨b, ?_, g2⟩
          simp only
          rw [List.getElem?_append_left (List.getElem?_eq_some_iff.mp g1).1]; exact g1
        · intro i t hi
          obtain ⟨b, g1, g2⟩ := h.coef i t hi
          refine ⟨b, ?_, g2⟩
          simp only
          rw [List.getElem?_append_left (List.getElem?_eq_some_iff.mp g1).1]; exact g1
      · rw [if_neg hm, show (ts.length - 1) / 64 = ts.length / 64 by omega]
        exact store_ok W s ts x h.count (by omega) (by omega) h.wf h.cwf h.ok hx h.get h.coef
  · rw [if_neg h0]
    have hts : ts = [] := by
      apply List.length_eq_zero_iff.mp
      rw [← h.count]; omega
    subst hts
    have := store_ok W ({ s with keys := [L.fresh], coefs := [List.replicate blockSize 0] } : Store B T)
      [] x h.count (by simp) (by simp) (by simp [W.wf_fresh]) (by simp) (by simp) hx (by simp) (by simp)
    simpa [addTerm] using this

theorem insertAll_ok (W : Lawful L) (xs : List (Term T)) (hx : ∀ x ∈ xs, W.ok x.key) :
    ∀ (s : Store B T) (ts : List (Term T)), Rep W s ts →
      ∃ s', insertAll L s xs = some s' ∧ Rep W s' (xs.foldl (fun ts x => addTerm x ts) ts) := by
  induction xs with
  | nil => intro s ts h; exact ⟨s, rfl, h⟩
  | cons x xs ih =>
    intro s ts h
    obtain ⟨s1, e1, h1⟩ := insert_ok W s ts h x (hx x (by simp))
    obtain ⟨s2, e2, h2⟩ := ih (fun y hy => hx y (by simp [hy])) s1 _ h1
    exact ⟨s2, by rw [insertAll, e1]; exact e2, h2⟩

theorem rep_empty (W : Lawful L) : Rep W (emptyStore B T) [] := by
  constructor <;> simp [emptyStore]

/-! ## Iteration -/

omit [AddCommMonoid T] in
theorem drain_ok (W : Lawful L) (s : Store B T) (ts : List (Term T)) (h : Rep W s ts) :
    ∀ (k i b : ℕ) (rounds : ℕ), i + k = ts.length → b ≤ i / 64 → i ≤ b * 64 + 64 → b * 64 ≤ i →
      (i = 0 ∨ b = (i - 1) / 64) → k + 1 ≤ rounds →
      drain L s.termCount rounds ⟨s.keys.drop b, s.coefs.drop b, i - b * 64, i⟩ =
        some (ts.drop i) := by
  intro k
  induction k with
  | zero =>
    intro i b rounds hik h1 h2 h3 h4 hr
    obtain ⟨r, rfl⟩ : ∃ r, rounds = r + 1 := ⟨rounds - 1, by omega⟩
    rw [List.drop_of_length_le (l := ts) (by omega)]
    rw [drain]
    have hn : nextTerm L s.termCount 2 (⟨s.keys.drop b, s.coefs.drop b, i - b * 64, i⟩ : It B T) =
        some (none, ⟨s.keys.drop b, s.coefs.drop b, i - b * 64, i⟩) := by
      rw [nextTerm]
      split
      · rw [if_pos (by simp only [h.count]; omega)]
      · rfl
    rw [hn]
  | succ k ih =>
    intro i b rounds hik h1 h2 h3 h4 hr
    obtain ⟨r, rfl⟩ : ∃ r, rounds = r + 1 := ⟨rounds - 1, by omega⟩
    have hi : i < ts.length := by omega
    have hti : ts[i]? = some ts[i] := List.getElem?_eq_getElem hi
    obtain ⟨kb, g1, g2⟩ := h.get i _ hti
    obtain ⟨cb, c1, c2⟩ := h.coef i _ hti
    have hkl := (List.getElem?_eq_some_iff.mp g1).1
    have hcl := (List.getElem?_eq_some_iff.mp c1).1
    have hdk : ∀ m, m < s.keys.length → ∃ y, s.keys.drop m = y :: s.keys.drop (m + 1) ∧
        s.keys[m]? = some y := fun m hm =>
      ⟨s.keys[m], List.drop_eq_getElem_cons hm, List.getElem?_eq_getElem hm⟩
    have hdc : ∀ m, m < s.coefs.length → ∃ y, s.coefs.drop m = y :: s.coefs.drop (m + 1) ∧
        s.coefs[m]? = some y := fun m hm =>
      ⟨s.coefs[m], List.drop_eq_getElem_cons hm, List.getElem?_eq_getElem hm⟩
    have hin : ∀ f, nextTerm L s.termCount (f + 1)
        (⟨s.keys.drop (i / 64), s.coefs.drop (i / 64), i % 64, i⟩ : It B T) =
        some (some ts[i], ⟨s.keys.drop (i / 64), s.coefs.drop (i / 64), i % 64 + 1, i + 1⟩) := by
      intro f
      obtain ⟨y, hy1, hy2⟩ := hdk (i / 64) hkl
      obtain ⟨z, hz1, hz2⟩ := hdc (i / 64) hcl
      rw [g1] at hy2; cases hy2
      rw [c1] at hz2; cases hz2
      rw [nextTerm, hy1, hz1]
      simp only
      rw [if_neg (by rw [h.count]; omega), if_pos (show i % 64 < blockSize from Nat.mod_lt _ (by decide)), c2, g2]
      simp only [Term.key]
    have hnext : nextTerm L s.termCount 2 (⟨s.keys.drop b, s.coefs.drop b, i - b * 64, i⟩ : It B T) =
        some (some ts[i], ⟨s.keys.drop (i / 64), s.coefs.drop (i / 64), i % 64 + 1, i + 1⟩) := by
      by_cases hb : i - b * 64 < 64
      · have : b = i / 64 := by omega
        subst this
        rw [show i - i / 64 * 64 = i % 64 by omega]
        exact hin 1
      · have hb' : b + 1 = i / 64 := by omega
        obtain ⟨y, hy1, hy2⟩ := hdk b (by omega)
        obtain ⟨z, hz1, hz2⟩ := hdc b (by omega)
        rw [nextTerm, hy1, hz1]
        simp only
        rw [if_neg (by rw [h.count]; omega), if_neg (by unfold blockSize; omega)]
        have := hin 0
        rw [show i % 64 = 0 by omega] at this
        rw [hb', this]
        rw [show i % 64 = 0 by omega]
    rw [drain, hnext]
    simp only
    have := ih (i + 1) (i / 64) r (by omega) (by omega) (by omega) (by omega) (by right; simp) (by omega)
    rw [show i + 1 - i / 64 * 64 = i % 64 + 1 by omega] at this
    rw [this, List.drop_eq_getElem_cons hi]
    rfl

omit [AddCommMonoid T] in
theorem drain_begin (W : Lawful L) (s : Store B T) (ts : List (Term T)) (h : Rep W s ts) (rounds : ℕ)
    (hr : ts.length + 1 ≤ rounds) : drain L s.termCount rounds (begin' s) = some ts := by
  have := drain_ok W s ts h ts.length 0 0 rounds (by omega) (by simp) (by omega) (by omega) (by simp)
    (by omega)
  simpa [begin'] using this

end

end Verif.Block
