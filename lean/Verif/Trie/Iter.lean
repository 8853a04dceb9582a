import Verif.Trie.Insert
import Mathlib.Data.List.Pairwise

/-!
# Iteration over burst tries
-/

namespace Verif.Trie

variable {T : Type} [AddCommMonoid T] [DecidableEq T]

/-- Put exponents in front. -/
def addPrefix (p : List ℤ) (t : Term T) : Term T := { t with exps := p ++ t.exps }

/-- The exponents along a path. -/
def pfx (P : List (ℤ × List (Elem T))) : List ℤ := (P.map Prod.fst).reverse

/-- What is still to come after the current container. -/
def after (D : ℕ) : List (ℤ × List (Elem T)) → List (Term T)
  | [] => []
  | (x, ptr) :: up =>
    (flatList (flat (D - (up.length + 1))) (x + 1) ptr.tail).map (addPrefix (pfx up)) ++ after D up

/-- Well-formed paths. -/
def PathWF (D : ℕ) : List (ℤ × List (Elem T)) → Prop
  | [] => True
  | (_, ptr) :: up => up.length + 1 ≤ D ∧ ptr ≠ [] ∧ (∀ e ∈ ptr, WF (D - (up.length + 1)) e) ∧
      PathWF D up

omit [AddCommMonoid T] [DecidableEq T] in
theorem map_pre_addPrefix (x : ℤ) (P : List (ℤ × List (Elem T))) (q : List (Elem T))
    (l : List (Term T)) :
    (l.map (pre x)).map (addPrefix (pfx P)) = l.map (addPrefix (pfx ((x, q) :: P))) := by
  rw [List.map_map]
  apply List.map_congr_left
  intro t _
  simp [pre, addPrefix, pfx]

omit [AddCommMonoid T] [DecidableEq T] in
theorem firstContainer_spec (D : ℕ) : ∀ (n : ℕ) (e : Elem T) (P : List (ℤ × List (Elem T))),
    WF n e → e.inUse → P.length + n = D → P ≠ [] → PathWF D P →
    ∃ ts P', firstContainer n e P = some (ts, P') ∧ ts ≠ [] ∧ P' ≠ [] ∧ PathWF D P' ∧
      P'.length ≤ D ∧ ContWF (D - P'.length) ts ∧
      (flat n e).map (addPrefix (pfx P)) ++ after D P =
        ts.map (addPrefix (pfx P')) ++ after D P' := by
  intro n
  induction n with
  | zero =>
    intro e P hw hu hl hP hPW
    cases e with
    | trie lo hi es => exact absurd hw (by simp [WF])
    | cont ts =>
      refine ⟨ts, P, rfl, hu, hP, hPW, by omega, ?_, rfl⟩
      have : D - P.length = 0 := by omega
      rw [this]; exact hw
  | succ n ih =>
    intro e P hw hu hl hP hPW
    cases e with
    | cont ts =>
      refine ⟨ts, P, rfl, hu, hP, hPW, by omega, ?_, rfl⟩
      have : D - P.length = n + 1 := by omega
      rw [this]; exact hw
    | trie lo hi es =>
      obtain ⟨-, h2, e, es', rfl, hu'⟩ := hw
      have hn : D - (P.length + 1) = n := by omega
      obtain ⟨ts, P', a1, a2, a3, a4, a5, a6, a7⟩ := ih e ((lo, e :: es') :: P) (h2 e (by simp)) hu'
        (by simp; omega) (by simp) ⟨by omega, by simp, by rw [hn]; exact h2, hPW⟩
      refine ⟨ts, P', a1, a2, a3, a4, a5, a6, ?_⟩
      rw [← a7, after, List.tail_cons, hn, flat, flatList, List.map_append,
        map_pre_addPrefix lo P (e :: es'), List.append_assoc]

omit [AddCommMonoid T] [DecidableEq T] in
theorem skip_spec (n : ℕ) (x : ℤ) (l : List (Elem T)) :
    flatList (flat n) x l = flatList (flat n) (skip x l).1 (skip x l).2 ∧
    (∀ e ∈ (skip x l).2, e ∈ l) ∧
    ((skip x l).2 = [] ∨ ∃ e es, (skip x l).2 = e :: es ∧ e.inUse) := by
  induction l generalizing x with
  | nil => exact ⟨rfl, by simp [skip], Or.inl rfl⟩
  | cons e l ih =>
    cases e with
    | trie lo hi es => exact ⟨rfl, fun _ h => h, Or.inr ⟨_, _, rfl, trivial⟩⟩
    | cont ts =>
      cases ts with
      | nil =>
        obtain ⟨h1, h2, h3⟩ := ih (x + 1)
        refine ⟨?_, fun e he => List.mem_cons_of_mem _ (h2 e he), h3⟩
        rw [skip, ← h1, flatList]
        cases n <;> rfl
      | cons t ts => exact ⟨rfl, fun _ h => h, Or.inr ⟨_, _, rfl, List.cons_ne_nil _ _⟩⟩

omit [AddCommMonoid T] [DecidableEq T] in
theorem nextUp_spec (D : ℕ) : ∀ (P : List (ℤ × List (Elem T))), P ≠ [] → PathWF D P →
    (after D P = [] ∧ ∃ P', nextUp D P = some (none, P')) ∨
    ∃ ts P', nextUp D P = some (some ts, P') ∧ ts ≠ [] ∧ P' ≠ [] ∧ PathWF D P' ∧
      P'.length ≤ D ∧ ContWF (D - P'.length) ts ∧
      after D P = ts.map (addPrefix (pfx P')) ++ after D P' := by
  intro P
  induction P with
  | nil => intro h; exact absurd rfl h
  | cons p up ih =>
    intro _ hw
    obtain ⟨x, ptr⟩ := p
    obtain ⟨h1, h2, h3, h4⟩ := hw
    cases ptr with
    | nil => exact absurd rfl h2
    | cons c rest =>
      obtain ⟨s1, s2, s3⟩ := skip_spec (D - (up.length + 1)) (x + 1) rest
      unfold nextUp
      rcases hsk : skip (x + 1) rest with ⟨x', l'⟩
      rw [hsk] at s1 s2 s3
      simp only at s1 s2 s3 ⊢
      cases l' with
      | nil =>
        simp only
        have ha : after D ((x, c :: rest) :: up) = after D up := by
          rw [after, List.tail_cons, s1]; rfl
        rw [ha]
        cases up with
        | nil => exact Or.inl ⟨rfl, _, rfl⟩
        | cons u us => exact ih (by simp) h4
      | cons e es =>
        simp only
        have hu : e.inUse := by
          rcases s3 with s3 | ⟨e', es', s3, hu⟩
          · simp at s3
          · cases s3; exact hu
        have hwf : ∀ a ∈ e :: es, WF (D - (up.length + 1)) a := fun a ha =>
          h3 a (List.mem_cons_of_mem _ (s2 a ha))
        obtain ⟨ts, P', a1, a2, a3, a4, a5, a6, a7⟩ := firstContainer_spec D (D - (up.length + 1)) e
          ((x', e :: es) :: up) (hwf e (by simp)) hu (by simp; omega) (by simp)
          ⟨h1, by simp, hwf, h4⟩
        right
        refine ⟨ts, P', by rw [a1]; rfl, a2, a3, a4, a5, a6, ?_⟩
        rw [← a7, after, List.tail_cons, s1, flatList, List.map_append,
          map_pre_addPrefix x' up (e :: es), List.append_assoc, after, List.tail_cons]

/-- Well-formed iterators. -/
structure ItWF (it : It T) : Prop where
  root : ∃ t, it.root = some t ∧ WF it.dim t.elem
  path : PathWF it.dim it.path
  len : it.path.length ≤ it.dim
  stored : ∀ s ∈ it.stored, s.exps.length = it.dim - it.path.length
  start : it.path = [] → it.stored = []

/-- The terms still to come. -/
def pend (it : It T) : List (Term T) :=
  match it.path with
  | [] => oflat it.dim it.root
  | P => it.stored.map (addPrefix (pfx P)) ++ after it.dim P

omit [AddCommMonoid T] [DecidableEq T] in
theorem assemble_spec (D : ℕ) (P : List (ℤ × List (Elem T))) (s : Term T)
    (h : s.exps.length = D - P.length) : assemble D P s = some (addPrefix (pfx P) s) := by
  unfold assemble
  rw [if_pos (by omega), ← h, List.take_length]
  rfl

omit [AddCommMonoid T] [DecidableEq T] in
theorem stepTerm_spec (it : It T) (h : ItWF it) (hd : 0 < it.dim) :
    match pend it with
    | [] => ∃ it', stepTerm it = some (none, it')
    | t :: l => ∃ it', stepTerm it = some (some t, it') ∧ ItWF it' ∧ it'.dim = it.dim ∧ pend it' = l := by
  obtain ⟨root, D, P, S⟩ := it
  obtain ⟨⟨t, ht, hwt⟩, hP, hlen, hS, hst⟩ := h
  simp only at ht hwt hP hlen hS hst hd
  subst ht
  -- after fetching a container
  have fetch : ∀ (ts : List (Term T)) (P' : List (ℤ × List (Elem T))), ts ≠ [] → P' ≠ [] →
      PathWF D P' → P'.length ≤ D → ContWF (D - P'.length) ts → S = [] →
      nextContainer ⟨some t, D, P, S⟩ = some (some ts, ⟨some t, D, P', S⟩) →
      match ts.map (addPrefix (pfx P')) ++ after D P' with
      | [] => ∃ it', stepTerm ⟨some t, D, P, S⟩ = some (none, it')
      | x :: l => ∃ it', stepTerm ⟨some t, D, P, S⟩ = some (some x, it') ∧ ItWF it' ∧ it'.dim = D ∧
          pend it' = l := by
    intro ts P' hts hP' hPW hl hc hS0 hn
    cases ts with
    | nil => exact absurd rfl hts
    | cons s rest =>
      subst hS0
      simp only [List.map_cons, List.cons_append]
      refine ⟨⟨some t, D, P', rest⟩, ?_, ⟨⟨t, rfl, hwt⟩, hPW, hl, ?_, fun h => absurd h hP'⟩, rfl, ?_⟩
      · simp only [stepTerm, hn, assemble_spec D P' s (hc.1 s (by simp)), Option.map_some]
      · intro s' hs'
        exact hc.1 s' (by simp [hs'])
      · cases P' with
        | nil => exact absurd rfl hP'
        | cons p ps => rfl
  cases P with
  | nil =>
    obtain rfl := hst rfl
    obtain ⟨D', rfl⟩ : ∃ D', D = D' + 1 := ⟨D - 1, by omega⟩
    obtain ⟨lo, hi, es⟩ := t
    obtain ⟨w1, w2, e, es', rfl, hu⟩ := hwt
    obtain ⟨ts, P', a1, a2, a3, a4, a5, a6, a7⟩ := firstContainer_spec (D' + 1) D' e [(lo, e :: es')]
      (w2 e (by simp)) hu (by simp; omega) (by simp) ⟨by simp, by simp, by simpa using w2, trivial⟩
    have hp : pend (⟨some ⟨lo, hi, e :: es'⟩, D' + 1, [], []⟩ : It T) =
        ts.map (addPrefix (pfx P')) ++ after (D' + 1) P' := by
      rw [← a7]
      show flat (D' + 1) (.trie lo hi (e :: es')) = _
      have h0 : ∀ l : List (Term T), l.map (addPrefix (pfx ([] : List (ℤ × List (Elem T))))) = l := by
        intro l
        conv_rhs => rw [← List.map_id l]
        apply List.map_congr_left
        intro t _
        simp [addPrefix, pfx]
      rw [flat, flatList, ← map_pre_addPrefix lo [] (e :: es'), h0, after, h0, after,
        List.append_nil, List.tail_cons]
      simp
    rw [hp]
    apply fetch ts P' a2 a3 a4 a5 a6 rfl
    simp only [nextContainer, Nat.add_sub_cancel, a1, Option.map_some]
  | cons p ps =>
    cases S with
    | cons s rest =>
      have hp : pend (⟨some t, D, p :: ps, s :: rest⟩ : It T) =
          addPrefix (pfx (p :: ps)) s :: (rest.map (addPrefix (pfx (p :: ps))) ++
            after D (p :: ps)) := rfl
      rw [hp]
      simp only
      refine ⟨⟨some t, D, p :: ps, rest⟩, ?_, ⟨⟨t, rfl, hwt⟩, hP, hlen, ?_, by simp⟩, rfl, rfl⟩
      · simp only [stepTerm, assemble_spec D (p :: ps) s (hS s (by simp)), Option.map_some]
      · intro s' hs'
        exact hS s' (by simp [hs'])
    | nil =>
      have hp : pend (⟨some t, D, p :: ps, []⟩ : It T) = after D (p :: ps) := by
        simp [pend]
      rw [hp]
      rcases nextUp_spec D (p :: ps) (by simp) hP with ⟨b1, P', b2⟩ | ⟨ts, P', b1, b2, b3, b4, b5, b6, b7⟩
      · rw [b1]
        simp only
        exact ⟨⟨some t, D, P', []⟩, by simp only [stepTerm, nextContainer, b2, Option.map_some]⟩
      · rw [b7]
        apply fetch ts P' b2 b3 b4 b5 b6 rfl
        simp only [nextContainer, b1, Option.map_some]

/-- The terms with non-zero coefficient. -/
def nonzero (l : List (Term T)) : List (Term T) := l.filter fun t => t.coef ≠ 0

theorem nextTerm_spec (fuel : ℕ) (it : It T) (h : ItWF it) (hd : 0 < it.dim)
    (hf : (pend it).length < fuel) :
    match nonzero (pend it) with
    | [] => ∃ it', nextTerm fuel it = some (none, it')
    | t :: l => ∃ it', nextTerm fuel it = some (some t, it') ∧ ItWF it' ∧ it'.dim = it.dim ∧
        (pend it').length < (pend it).length ∧ nonzero (pend it') = l := by
  induction fuel generalizing it with
  | zero => omega
  | succ k ih =>
    have hs := stepTerm_spec it h hd
    cases hp : pend it with
    | nil =>
      rw [hp] at hs
      obtain ⟨it', e⟩ := hs
      exact ⟨it', by simp only [nextTerm, e]⟩
    | cons t l =>
      rw [hp] at hs
      obtain ⟨it', e, w, d, p⟩ := hs
      by_cases hc : t.coef = 0
      · have hnz : nonzero (t :: l) = nonzero l := by simp [nonzero, hc]
        rw [hnz]
        have hlt : (pend it').length < k := by rw [p]; rw [hp] at hf; simp at hf; omega
        have := ih it' w (d ▸ hd) hlt
        rw [p] at this
        cases hl : nonzero l with
        | nil =>
          rw [hl] at this
          obtain ⟨it'', e2⟩ := this
          exact ⟨it'', by simp only [nextTerm, e, if_pos hc, e2]⟩
        | cons s l' =>
          rw [hl] at this
          obtain ⟨it'', e2, w2, d2, q2, r2⟩ := this
          refine ⟨it'', by simp only [nextTerm, e, if_pos hc, e2], w2, d2.trans d, ?_, r2⟩
          simp only [List.length_cons]; omega
      · have hnz : nonzero (t :: l) = t :: nonzero l := by simp [nonzero, hc]
        rw [hnz]
        refine ⟨it', by simp only [nextTerm, e, if_neg hc], w, d, ?_, by rw [p]⟩
        rw [p]; simp

theorem drain_spec (fuel rounds : ℕ) (it : It T) (h : ItWF it) (hd : 0 < it.dim)
    (hf : (pend it).length < fuel) (hr : (pend it).length < rounds) :
    drain fuel rounds it = some (nonzero (pend it)) := by
  induction rounds generalizing it with
  | zero => omega
  | succ k ih =>
    have hs := nextTerm_spec fuel it h hd hf
    cases hp : nonzero (pend it) with
    | nil =>
      rw [hp] at hs
      obtain ⟨it', e⟩ := hs
      simp only [drain, e]
    | cons t l =>
      rw [hp] at hs
      obtain ⟨it', e, w, d, lt, p⟩ := hs
      simp only [drain, e, ih it' w (d ▸ hd) (by omega) (by omega), p, Option.map_some]

/-- Iterating a well-formed trie delivers its stored terms with non-zero coefficient in storage order. -/
theorem drain_begin (D : ℕ) (hD : 0 < D) (t : Root T) (h : WF D t.elem) (fuel rounds : ℕ)
    (hf : (flat D t.elem).length < fuel) (hr : (flat D t.elem).length < rounds) :
    drain fuel rounds (begin' (some t) D) = some (nonzero (flat D t.elem)) :=
  drain_spec fuel rounds _ ⟨⟨t, rfl, h⟩, trivial, by simp [begin'], by simp [begin'], fun _ => rfl⟩ hD hf hr

/-! ## The order -/

/-- Terms of the same degree are in increasing lexicographic order. -/
def Rel (a b : Term T) : Prop := a.degree = b.degree → List.Lex (· < ·) a.exps b.exps

omit [AddCommMonoid T] [DecidableEq T] in
theorem mem_flatList {f : Elem T → List (Term T)} {x : ℤ} {es : List (Elem T)} {t : Term T}
    (h : t ∈ flatList f x es) : ∃ e ∈ es, ∃ y, x ≤ y ∧ ∃ s ∈ f e, t = pre y s := by
  induction es generalizing x with
  | nil => simp [flatList] at h
  | cons e es ih =>
    rw [flatList, List.mem_append, List.mem_map] at h
    rcases h with ⟨s, hs, rfl⟩ | h
    · exact ⟨e, by simp, x, le_rfl, s, hs, rfl⟩
    · obtain ⟨e', he', y, hy, s, hs, rfl⟩ := ih h
      exact ⟨e', by simp [he'], y, by omega, s, hs, rfl⟩

omit [AddCommMonoid T] [DecidableEq T] in
theorem flat_sorted (n : ℕ) : ∀ e : Elem T, WF n e → (flat n e).Pairwise Rel ∧
    ∀ t ∈ flat n e, t.exps.length = n := by
  have hc : ∀ (n : ℕ) (ts : List (Term T)), ContWF n ts → ts.Pairwise Rel := by
    intro n ts h
    refine h.2.imp ?_
    intro a b hab hd
    rcases hab with hab | hab
    · omega
    · exact hab.2
  induction n with
  | zero =>
    intro e he
    cases e with
    | cont ts => exact ⟨hc 0 ts he, he.1⟩
    | trie lo hi es => exact absurd he (by simp [WF])
  | succ n ih =>
    intro e he
    cases e with
    | cont ts => exact ⟨hc (n + 1) ts he, he.1⟩
    | trie lo hi es =>
      obtain ⟨-, hw, -⟩ := he
      rw [flat]
      have : ∀ (es : List (Elem T)), (∀ e ∈ es, WF n e) → ∀ x : ℤ,
          (flatList (flat n) x es).Pairwise Rel := by
        intro es
        induction es with
        | nil => intro _ x; simp [flatList]
        | cons e es ihes =>
          intro hes x
          rw [flatList, List.pairwise_append]
          refine ⟨?_, ihes (fun a ha => hes a (by simp [ha])) (x + 1), ?_⟩
          · rw [List.pairwise_map]
            refine (ih e (hes e (by simp))).1.imp ?_
            intro a b hab hd
            exact List.Lex.cons (hab hd)
          · intro a ha b hb _
            rw [List.mem_map] at ha
            obtain ⟨a', -, rfl⟩ := ha
            obtain ⟨_, -, y, hy, b', -, rfl⟩ := mem_flatList hb
            exact List.Lex.rel (by omega)
      refine ⟨this es hw lo, ?_⟩
      intro t ht
      obtain ⟨e, he, y, -, s, hs, rfl⟩ := mem_flatList ht
      simp [pre, (ih e (hw e he)).2 s hs]

end Verif.Trie
