import Verif.Block.Lemmas
import Verif.Trie.DecProps

/-!
# C43: block storage of polynomials
-/

namespace Verif.Block

open Verif.Trie

section
variable {B T : Type} [AddCommMonoid T] {L : Layout B}

theorem addTerm_coefAt (x : Term T) (ts : List (Term T)) (k : Key) :
    coefAt k (addTerm x ts) = coefAt k ts + coefAt k [x] := by
  induction ts with
  | nil => simp [addTerm]
  | cons t ts ih =>
    rw [addTerm]
    by_cases h : t.key = x.key
    · rw [if_pos h, coefAt_cons, coefAt_cons, coefAt_cons, coefAt_nil]
      have : ({ t with coef := t.coef + x.coef } : Term T).key = t.key := rfl
      rw [this]
      unfold one
      rw [← h]
      by_cases hk : t.key = k
      · simp only [if_pos hk]; abel
      · simp [if_neg hk]
    · rw [if_neg h, coefAt_cons k t (addTerm x ts), ih, coefAt_cons k t ts, add_assoc]

theorem addTerm_keys (x : Term T) (ts : List (Term T)) :
    (addTerm x ts).map Term.key =
      if x.key ∈ ts.map Term.key then ts.map Term.key else ts.map Term.key ++ [x.key] := by
  induction ts with
  | nil => simp [addTerm]
  | cons t ts ih =>
    rw [addTerm]
    by_cases h : t.key = x.key
    · rw [if_pos h]
      rw [if_pos (by simp [h])]
      rfl
    · rw [if_neg h, List.map_cons, ih]
      have h' : x.key ≠ t.key := fun e => h e.symm
      by_cases hm : x.key ∈ ts.map Term.key
      · rw [if_pos hm, if_pos (by simp only [List.map_cons, List.mem_cons]; right; exact hm)]
        rfl
      · rw [if_neg hm, if_neg (by simp only [List.map_cons, List.mem_cons, not_or]; exact ⟨h', hm⟩)]
        rfl

theorem foldl_coefAt (xs ts : List (Term T)) (k : Key) :
    coefAt k (xs.foldl (fun ts x => addTerm x ts) ts) = coefAt k ts + coefAt k xs := by
  induction xs generalizing ts with
  | nil => simp
  | cons x xs ih =>
    rw [List.foldl_cons, ih, addTerm_coefAt, coefAt_cons k x xs, coefAt_cons k x []]
    simp only [coefAt_nil]; abel

theorem foldl_keys (xs ts : List (Term T)) (h : (ts.map Term.key).Nodup) :
    ((xs.foldl (fun ts x => addTerm x ts) ts).map Term.key).Nodup ∧
    ∀ k, k ∈ (xs.foldl (fun ts x => addTerm x ts) ts).map Term.key ↔
      k ∈ ts.map Term.key ∨ k ∈ xs.map Term.key := by
  induction xs generalizing ts with
  | nil => exact ⟨h, fun k => by simp⟩
  | cons x xs ih =>
    have hn : ((addTerm x ts).map Term.key).Nodup := by
      rw [addTerm_keys]
      split
      · exact h
      · rename_i hx
        rw [List.nodup_append]
        refine ⟨h, by simp, ?_⟩
        intro a ha b hb
        simp only [List.mem_singleton] at hb
        subst hb
        rintro rfl
        exact hx ha
    obtain ⟨a, b⟩ := ih (addTerm x ts) hn
    refine ⟨a, fun k => ?_⟩
    rw [List.foldl_cons, b k, addTerm_keys]
    split
    · rename_i hx
      simp only [List.map_cons, List.mem_cons]
      constructor
      · rintro (h | h)
        · exact Or.inl h
        · exact Or.inr (Or.inr h)
      · rintro (h | h | h)
        · exact Or.inl h
        · subst h; exact Or.inl hx
        · exact Or.inr h
    · simp [or_assoc]

/-- Any lawful block store behaves as a finite map. -/
theorem store_is_map (W : Lawful L) (xs : List (Term T)) (hx : ∀ x ∈ xs, W.ok x.key) :
    ∃ s out, insertAll L (emptyStore B T) xs = some s ∧ s.termCount = out.length ∧ Rep W s out ∧
      (∀ rounds, out.length < rounds → drain L s.termCount rounds (begin' s) = some out) ∧
      (out.map Term.key).Nodup ∧
      (∀ k, k ∈ out.map Term.key ↔ k ∈ xs.map Term.key) ∧
      ∀ k, coefAt k out = coefAt k xs := by
  obtain ⟨s, e, h⟩ := insertAll_ok W xs hx (emptyStore B T) [] (rep_empty W)
  obtain ⟨a, b⟩ := foldl_keys xs ([] : List (Term T)) (by simp)
  refine ⟨s, _, e, h.count, h, fun rounds hr => drain_begin W s _ h rounds hr, a, fun k => ?_,
    fun k => ?_⟩
  · rw [b k]; simp
  · rw [foldl_coefAt]; simp
end

/-- **C43, monomials.** Insert any sequence of monomials over `v` variables, of any length, into an empty
block store. No access goes wrong; iterating over the store delivers each exponent vector that was
inserted exactly once, with the sum of the inserted coefficients (zero sums included), whatever
uninitialised memory contains. -/
theorem c43_monomial_blocks {T : Type} [AddCommMonoid T] (v : ℕ) (junk : ℤ) (xs : List (Term T))
    (hx : ∀ x ∈ xs, x.exps.length = v ∧ x.degree = -1) :
    ∃ s out, insertAll (eLayout v junk) (emptyStore (List ℤ) T) xs = some s ∧
      (∀ rounds, out.length < rounds →
        drain (eLayout v junk) s.termCount rounds (begin' s) = some out) ∧
      (out.map fun t => (t.degree, t.exps)).Nodup ∧
      (∀ d es, (∃ t ∈ out, t.degree = d ∧ t.exps = es) ↔ ∃ x ∈ xs, x.degree = d ∧ x.exps = es) ∧
      ∀ k, coefAt k out = coefAt k xs := by
  obtain ⟨s, out, a, _, _, b, c, d, e⟩ := store_is_map (eLawful v junk) xs
    (fun x h => ⟨(hx x h).2, (hx x h).1⟩)
  refine ⟨s, out, a, b, c, fun dg es => ?_, e⟩
  have := d (dg, es)
  simpa [Term.key, Prod.ext_iff] using this

/-- **C43, powers of linear forms.** The same for the store of linear forms, where degree and form
together identify a term. -/
theorem c43_linear_form_blocks {T : Type} [AddCommMonoid T] (v : ℕ) (junk : ℤ) (xs : List (Term T))
    (hx : ∀ x ∈ xs, x.exps.length = v) :
    ∃ s out, insertAll (lLayout v junk) (emptyStore LBlk T) xs = some s ∧
      (∀ rounds, out.length < rounds →
        drain (lLayout v junk) s.termCount rounds (begin' s) = some out) ∧
      (out.map fun t => (t.degree, t.exps)).Nodup ∧
      (∀ d es, (∃ t ∈ out, t.degree = d ∧ t.exps = es) ↔ ∃ x ∈ xs, x.degree = d ∧ x.exps = es) ∧
      ∀ k, coefAt k out = coefAt k xs := by
  obtain ⟨s, out, a, _, _, b, c, d, e⟩ := store_is_map (lLawful v junk) xs hx
  refine ⟨s, out, a, b, c, fun dg es => ?_, e⟩
  have := d (dg, es)
  simpa [Term.key, Prod.ext_iff] using this

/-! ## Decomposition -/

theorem constantTest_eq (blk es : List ℤ) : ∀ off : ℕ,
    (∀ j, j < es.length → blk[off + j]? = es[j]?) →
    constantTest blk off es.length = some (decide (∀ e ∈ es, e = 0)) := by
  induction es with
  | nil => intro off _; rfl
  | cons e es ih =>
    intro off h
    have h0 := h 0 (by simp)
    simp only [Nat.add_zero, List.getElem?_cons_zero] at h0
    rw [List.length_cons, constantTest, h0]
    simp only
    by_cases he : e = 0
    · rw [if_neg (by simpa using he), ih (off + 1)]
      · simp [he]
      · intro j hj
        have := h (j + 1) (by simp; omega)
        rw [List.getElem?_cons_succ] at this
        rw [← this]; congr 1; omega
    · rw [if_pos he]
      simp [he]

/-- **C43, the defect.** Decomposing a term with index 64 or more of a store over at least one variable
reads outside the exponent array, whatever the store contains. -/
theorem c43_decompose_out_of_bounds (v : ℕ) (hv : 0 < v) (junk : ℤ) (xs : List (Term ℚ))
    (hx : ∀ x ∈ xs, x.exps.length = v ∧ x.degree = -1) (m : ℕ) (hm : 64 ≤ m) :
    ∃ s, insertAll (eLayout v junk) (emptyStore (List ℤ) ℚ) xs = some s ∧ decomposeAt v s m = none := by
  obtain ⟨s, out, a, _, r, _, _, _, _⟩ := store_is_map (eLawful v junk) xs
    (fun x h => ⟨(hx x h).2, (hx x h).1⟩)
  refine ⟨s, a, ?_⟩
  unfold decomposeAt
  cases hk : s.keys[m / blockSize]? with
  | none => rfl
  | some blk =>
    cases hc : s.coefs[m / blockSize]? with
    | none => rfl
    | some cb =>
      simp only
      have hl : blk.length = v * blockSize := r.wf blk (List.mem_of_getElem? hk)
      have : constantTest blk (m * v) v = none := by
        obtain ⟨n, rfl⟩ : ∃ n, v = n + 1 := ⟨v - 1, by omega⟩
        rw [constantTest, List.getElem?_eq_none]
        rw [hl, Nat.mul_comm]
        exact Nat.mul_le_mul_right _ hm
      rw [this]

theorem decomposeAt_eq (v : ℕ) (hv : 0 < v) (junk : ℤ) (s : Store (List ℤ) ℚ) (ts : List (Term ℚ))
    (h : Rep (eLawful v junk) s ts) (h0 : ∀ t ∈ ts, ∀ e ∈ t.exps, 0 ≤ e) (m : ℕ) (hm : m < 64)
    (t : Term ℚ) (ht : ts[m]? = some t) : decomposeAt v s m = decomposeTerm t := by
  obtain ⟨blk, g1, g2⟩ := h.get m t ht
  obtain ⟨cb, c1, c2⟩ := h.coef m t ht
  have hok : t.key.1 = -1 ∧ t.key.2.length = v := h.ok t (List.mem_of_getElem? ht)
  obtain ⟨hd, hl⟩ := hok
  have hr : readAt blk (m * v) v = some t.exps := by
    simp only [eLayout] at g2
    rw [Nat.mod_eq_of_lt hm] at g2
    cases hr : readAt blk (m * v) v with
    | none => rw [hr] at g2; cases g2
    | some l =>
      rw [hr] at g2
      simp only [Option.map_some, Option.some.injEq, Term.key, Prod.mk.injEq] at g2
      rw [g2.2]
  have hrd := (readAt_inv blk v (m * v) t.exps hr)
  have hct := constantTest_eq blk t.exps (m * v) (fun j hj => hrd.2 j (by omega))
  rw [hrd.1] at hct
  unfold decomposeAt
  rw [show m / blockSize = m / 64 from rfl, show m % blockSize = m % 64 from rfl, g1, c1]
  simp only
  rw [hct, c2, Nat.mod_eq_of_lt hm, hr]
  have hns : ∀ e ∈ t.exps, 0 ≤ e := h0 t (List.mem_of_getElem? ht)
  have hprod : t.exps.foldl (fun a e => a * (e + 1)) 1 - 1 = 0 ↔ ∀ e ∈ t.exps, e = 0 := by
    have hge : ∀ (l : List ℤ) (a : ℤ), (∀ e ∈ l, 0 ≤ e) → 0 < a → a ≤ l.foldl (fun a e => a * (e + 1)) a ∧
        (l.foldl (fun a e => a * (e + 1)) a = a ↔ ∀ e ∈ l, e = 0) := by
      intro l
      induction l with
      | nil => intro a _ _; simp
      | cons e l ih =>
        intro a he ha
        have he0 := he e (by simp)
        obtain ⟨i1, i2⟩ := ih (a * (e + 1)) (fun x hx => he x (by simp [hx])) (by positivity)
        have hstep : a ≤ a * (e + 1) := by nlinarith
        refine ⟨hstep.trans i1, ?_⟩
        rw [List.foldl_cons]
        constructor
        · intro heq
          have : a * (e + 1) = a := le_antisymm (i1.trans heq.le) hstep
          have e0 : e = 0 := by
            have : a * e = 0 := by linarith
            rcases mul_eq_zero.mp this with h | h
            · omega
            · exact h
          have := i2.mp (by rw [heq, this])
          intro x hx
          rcases List.mem_cons.mp hx with rfl | hx
          · exact e0
          · exact this x hx
        · intro hall
          have e0 := hall e (by simp)
          subst e0
          have := i2.mpr (fun x hx => hall x (by simp [hx]))
          simpa using this
    have := (hge t.exps 1 hns (by omega)).2
    rw [← this]; constructor <;> intro h <;> linarith
  unfold decomposeTerm
  by_cases hz : ∀ e ∈ t.exps, e = 0
  · rw [decide_eq_true hz]
    simp only
    rw [if_pos (hprod.mpr hz)]
    congr 2
    have : t.exps.map (fun _ => (0 : ℤ)) = List.replicate v 0 := by
      rw [List.map_const', hrd.1]
    rw [this]
  · rw [decide_eq_false hz]
    simp only
    rw [if_neg (fun h => hz (hprod.mp h))]

theorem insertAll_append' {B T : Type} [AddCommMonoid T] (L : Layout B) (s : Store B T)
    (a b : List (Term T)) : insertAll L s (a ++ b) = (insertAll L s a).bind fun s => insertAll L s b := by
  induction a generalizing s with
  | nil => rfl
  | cons x a ih =>
    rw [List.cons_append, insertAll, insertAll]
    cases insert L s x with
    | none => rfl
    | some s' => exact ih s'

theorem decomposeAll_eq (v : ℕ) (hv : 0 < v) (junk junk' : ℤ) (s : Store (List ℤ) ℚ) (ts : List (Term ℚ))
    (h : Rep (eLawful v junk) s ts) (h0 : ∀ t ∈ ts, ∀ e ∈ t.exps, 0 ≤ e) (hts : ts.length ≤ 64) :
    ∀ (k m : ℕ), m + k = ts.length → ∃ fs, (∀ f ∈ fs, f.exps.length = v) ∧
      formsPoly v fs = monoPoly v (ts.drop m) ∧
      ∀ l, decomposeAll v junk' s k m l = insertAll (lLayout v junk') l fs := by
  intro k
  induction k with
  | zero =>
    intro m hm
    refine ⟨[], by simp, ?_, fun l => rfl⟩
    rw [List.drop_of_length_le (by omega)]; rfl
  | succ k ih =>
    intro m hm
    have hlt : m < ts.length := by omega
    have ht : ts[m]? = some ts[m] := List.getElem?_eq_getElem hlt
    obtain ⟨gs, g1, g2, g3⟩ := ih (m + 1) (by omega)
    have hl : ts[m].exps.length = v := (h.ok _ (List.getElem_mem hlt)).2
    obtain ⟨fs, f1, f2, f3⟩ := decomposeTerm_poly v ts[m] hl (h0 _ (List.getElem_mem hlt))
    refine ⟨fs ++ gs, ?_, ?_, fun l => ?_⟩
    · intro f hf
      rcases List.mem_append.mp hf with hf | hf
      · exact (f2 f hf).1
      · exact g1 f hf
    · rw [formsPoly_append, f3, g2, List.drop_eq_getElem_cons hlt]
      rfl
    · rw [decomposeAll, decomposeAt_eq v hv junk s ts h h0 m (by omega) _ ht, f1, insertAll_append']
      simp only
      cases insertAll (lLayout v junk') l fs with
      | none => rfl
      | some l' => exact g3 l'

/-- **C43, the part of decomposition that holds.** If the terms inserted have at most 64 distinct exponent
vectors, decomposing the whole store into an empty store of linear forms succeeds, and iterating over the
result delivers powers of linear forms that add up to the polynomial inserted. -/
theorem c43_decompose_partial (v : ℕ) (hv : 0 < v) (junk junk' : ℤ) (xs : List (Term ℚ))
    (hx : ∀ x ∈ xs, x.exps.length = v ∧ x.degree = -1 ∧ ∀ e ∈ x.exps, 0 ≤ e)
    (hsmall : (xs.map Term.exps).toFinset.card ≤ 64) :
    ∃ s lf out, insertAll (eLayout v junk) (emptyStore (List ℤ) ℚ) xs = some s ∧
      decomposeAll v junk' s s.termCount 0 (emptyStore LBlk ℚ) = some lf ∧
      (∀ rounds, out.length < rounds →
        drain (lLayout v junk') lf.termCount rounds (begin' lf) = some out) ∧
      formsPoly v out = monoPoly v xs := by
  obtain ⟨s, ts, a, a', r, _, nd, mem, e⟩ := store_is_map (eLawful v junk) xs
    (fun x h => ⟨(hx x h).2.1, (hx x h).1⟩)
  have hfrom : ∀ t ∈ ts, ∃ x ∈ xs, x.key = t.key := by
    intro t ht
    have := (mem t.key).mp (List.mem_map.mpr ⟨t, ht, rfl⟩)
    exact List.mem_map.mp this
  have h0 : ∀ t ∈ ts, ∀ e ∈ t.exps, 0 ≤ e := by
    intro t ht
    obtain ⟨x, hx', hk⟩ := hfrom t ht
    unfold Term.key at hk
    simp only [Prod.mk.injEq] at hk
    rw [← hk.2]
    exact (hx x hx').2.2
  have hlen : ts.length ≤ 64 := by
    refine le_trans ?_ hsmall
    have hdeg : ∀ t ∈ ts, t.degree = -1 := fun t ht => (r.ok t ht).1
    have nd' : (ts.map Term.exps).Nodup := by
      have hmap : ts.map Term.key = (ts.map Term.exps).map fun es => ((-1 : ℤ), es) := by
        rw [List.map_map]
        apply List.map_congr_left
        intro t ht
        simp [Term.key, hdeg t ht]
      rw [hmap] at nd
      exact List.Nodup.of_map _ nd
    rw [← List.length_map (f := Term.exps), ← List.toFinset_card_of_nodup nd']
    apply Finset.card_le_card
    intro es hes
    rw [List.mem_toFinset, List.mem_map] at hes ⊢
    obtain ⟨t, ht, rfl⟩ := hes
    obtain ⟨x, hx', hk⟩ := hfrom t ht
    unfold Term.key at hk
    simp only [Prod.mk.injEq] at hk
    exact ⟨x, hx', hk.2⟩
  obtain ⟨fs, f1, f2, f3⟩ := decomposeAll_eq v hv junk junk' s ts r h0 hlen s.termCount 0 (by omega)
  obtain ⟨lf, out, b, _, _, c, _, _, d⟩ := store_is_map (lLawful v junk') fs f1
  refine ⟨s, lf, out, a, by rw [f3]; exact b, c, ?_⟩
  rw [formsPoly_congr v out fs d, f2]
  exact monoPoly_congr v _ _ e

/-- Non-vacuous: 70 insertions with 65 distinct exponents, filling a second block. -/
example : ((insertAll (eLayout 1 7) (emptyStore (List ℤ) ℚ)
    ((List.range 70).map fun i : ℕ => ⟨1, [((i % 65 : ℕ) : ℤ)], -1⟩)).bind fun s =>
      (drain (eLayout 1 7) s.termCount 99 (begin' s)).map fun out =>
        (s.termCount, out.map fun t => (t.coef, t.exps))) =
    some (65, (List.range 65).map fun i : ℕ => ((if i < 5 then 2 else 1 : ℚ), [(i : ℤ)])) := by
  decide +kernel

end Verif.Block
