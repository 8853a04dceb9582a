import Verif.Digging.Model
import Mathlib.Data.Set.Card
import Mathlib.Data.Set.Finite.List
import Mathlib.Data.Finset.Card
import Mathlib.Algebra.BigOperators.Group.List.Lemmas

/-!
# The terms of one cone are enumerated level by level

`Calculate_Next_Highest_Term` (ConeInfo.cpp 695–1020) moves from one value of `∑ eᵢ sᵢ` to the next smaller one and lists all exponent vectors with this value,
each once.
-/

namespace Verif.Digging

/-! ## Exponent vectors -/

/-- `∑ eᵢ sᵢ`. -/
def dotL (e : List ℕ) (s : List ℤ) : ℤ := (List.zipWith (fun (x : ℕ) (y : ℤ) => (x : ℤ) * y) e s).sum

theorem dotL_cons (x : ℕ) (e : List ℕ) (y : ℤ) (s : List ℤ) : dotL (x :: e) (y :: s) = x * y + dotL e s := by
  simp [dotL]

/-- `∑ (i+1) eᵢ`. -/
def rank : List ℕ → ℕ
  | [] => 0
  | x :: e => x + e.sum + rank e

/-- The unit vector for the first generator. -/
def unit0 (k : ℕ) : List ℕ := (List.replicate k 0).set 0 1

/-- The vectors put into the heap when `q` is processed; the first one when the object is created. -/
inductive Child (s : List ℤ) : List ℕ → List ℕ → Prop
  | first : Child s (List.replicate s.length 0) (unit0 s.length)
  | bump (x e) : (x :: e).sum ≠ 0 → Child s (x :: e) ((x + 1) :: e)
  | move (q f d) : q.sum ≠ 0 → moveFirst q s = some (some (f, d)) → Child s q f

theorem sum_eq_zero {e : List ℕ} (h : e.sum = 0) : e = List.replicate e.length 0 := by
  induction e with
  | nil => rfl
  | cons x e ih =>
    rw [List.sum_cons] at h
    have hx : x = 0 := by omega
    subst hx
    rw [List.length_cons, List.replicate_succ, ← ih (by omega)]

theorem dotL_zero (k : ℕ) (s : List ℤ) : dotL (List.replicate k 0) s = 0 := by
  induction k generalizing s with
  | zero => simp [dotL]
  | succ k ih =>
    cases s with
    | nil => simp [dotL]
    | cons y s => rw [List.replicate_succ, dotL_cons, ih]; simp

theorem moveFirst_spec : ∀ (q : List ℕ) (s : List ℤ), q.length = s.length → q.sum ≠ 0 → s.Pairwise (· ≥ ·) →
    moveFirst q s = some none ∨ ∃ f d, moveFirst q s = some (some (f, d)) ∧ f.length = q.length ∧ dotL f s = dotL q s + d ∧ d ≤ 0 ∧ f.sum = q.sum := by
  intro q
  induction q with
  | nil => intro s _ h; exact absurd rfl h
  | cons x e ih =>
    intro s hl hs hsort
    cases s with
    | nil => cases hl
    | cons y s =>
      unfold moveFirst
      by_cases hx : x ≠ 0
      · rw [if_pos hx]
        cases e with
        | nil => exact Or.inl rfl
        | cons z e =>
          cases s with
          | nil => cases hl
          | cons y' s =>
            refine Or.inr ⟨_, _, rfl, rfl, ?_, ?_, ?_⟩
            · rw [dotL_cons, dotL_cons, dotL_cons, dotL_cons]
              have : ((x - 1 : ℕ) : ℤ) = (x : ℤ) - 1 := by omega
              rw [this]
              push_cast
              ring
            · have := (List.pairwise_cons.1 hsort).1 y' List.mem_cons_self
              omega
            · simp only [List.sum_cons]
              omega
      · rw [if_neg hx]
        push Not at hx
        subst hx
        rcases ih s (by simpa using hl) (by simpa using hs) (List.pairwise_cons.1 hsort).2 with h | ⟨f, d, h1, h2, h3, h4, h5⟩
        · rw [h]; exact Or.inl rfl
        · rw [h1]
          refine Or.inr ⟨_, _, rfl, by simp [h2], ?_, h4, by simpa using h5⟩
          rw [dotL_cons, dotL_cons, h3]
          ring

theorem child_spec {s : List ℤ} (hneg : ∀ y ∈ s, y < 0) (hsort : s.Pairwise (· ≥ ·)) (h0 : s ≠ []) {q f : List ℕ} (h : Child s q f) (hl : q.length = s.length) :
    f.length = s.length ∧ f.sum ≠ 0 ∧ dotL f s ≤ dotL q s := by
  cases h with
  | first =>
    cases s with
    | nil => exact absurd rfl h0
    | cons y s =>
      refine ⟨by simp [unit0], by simp [unit0, List.replicate_succ], ?_⟩
      have := hneg y List.mem_cons_self
      have e : unit0 (y :: s).length = 1 :: List.replicate s.length 0 := rfl
      rw [e, dotL_zero, dotL_cons, dotL_zero]
      simp
      omega
  | bump x e hs =>
    cases s with
    | nil => cases hl
    | cons y s =>
      refine ⟨by simpa using hl, by simp, ?_⟩
      have := hneg y List.mem_cons_self
      rw [dotL_cons, dotL_cons]
      push_cast
      linarith
  | move _ _ d hs hm =>
    rcases moveFirst_spec q s hl hs hsort with h | ⟨f', d', h1, h2, h3, h4, h5⟩
    · rw [hm] at h; cases h
    · rw [hm] at h1
      cases h1
      exact ⟨h2.trans hl, h5 ▸ hs, by linarith⟩

/-- A vector whose first entry is zero arises by moving a unit. -/
theorem move_parent : ∀ (e : List ℕ) (s : List ℤ), (0 :: e).length = s.length → e.sum ≠ 0 →
    ∃ q d, moveFirst q s = some (some (0 :: e, d)) ∧ q.length = s.length ∧ q.sum ≠ 0 ∧ rank (0 :: e) = rank q + 1 := by
  intro e
  induction e with
  | nil => intro s _ h; exact absurd rfl h
  | cons y e ih =>
    intro s hl hs
    match s, hl with
    | [], hl => cases hl
    | [_], hl => simp at hl
    | a :: b :: s, hl =>
      by_cases hy : y = 0
      · subst hy
        obtain ⟨q, d, h1, h2, h3, h4⟩ := ih (b :: s) (by simpa using hl) (by simpa using hs)
        refine ⟨0 :: q, d, ?_, by simp [h2], by simpa using h3, ?_⟩
        · unfold moveFirst
          rw [if_neg (by simp), h1]
        · have hsum : q.sum = (0 :: e).sum := by
            rcases Classical.em ((b :: s).Pairwise (· ≥ ·)) with _ | _
            · have := sum_of_move q (b :: s) h1
              simpa using this
            · have := sum_of_move q (b :: s) h1
              simpa using this
          simp only [rank, List.sum_cons] at h4 hsum ⊢
          omega
      · refine ⟨1 :: (y - 1) :: e, b - a, ?_, by simpa using hl, by simp, ?_⟩
        · unfold moveFirst
          rw [if_pos (by simp)]
          simp only [Nat.sub_self, Option.some.injEq, Prod.mk.injEq, List.cons.injEq, and_true, true_and]
          omega
        · simp only [rank, List.sum_cons]
          omega
where
  sum_of_move : ∀ (q : List ℕ) (s : List ℤ) {f d}, moveFirst q s = some (some (f, d)) → q.sum = f.sum := by
    intro q
    induction q with
    | nil => intro s f d h; cases h
    | cons x q ih =>
      intro s f d h
      match s with
      | [] => cases h
      | a :: s =>
        unfold moveFirst at h
        by_cases hx : x ≠ 0
        · rw [if_pos hx] at h
          match q, s with
          | [], _ => cases h
          | z :: q, [] => cases h
          | z :: q, b :: s =>
            cases h
            simp only [List.sum_cons]
            omega
        · rw [if_neg hx] at h
          cases hm : moveFirst q s with
          | none => rw [hm] at h; cases h
          | some r =>
            cases r with
            | none => rw [hm] at h; cases h
            | some p =>
              rw [hm] at h
              obtain ⟨f', d'⟩ := p
              cases h
              have := ih s hm
              simp only [List.sum_cons]
              omega

/-- Every vector other than zero is a child of a vector of smaller rank. -/
theorem exists_parent (s : List ℤ) (e : List ℕ) (hl : e.length = s.length) (he : e.sum ≠ 0) :
    ∃ q, Child s q e ∧ q.length = s.length ∧ rank q < rank e := by
  cases e with
  | nil => exact absurd rfl he
  | cons x e =>
    by_cases hx : x = 0
    · subst hx
      obtain ⟨q, d, h1, h2, h3, h4⟩ := move_parent e s hl (by simpa using he)
      exact ⟨q, Child.move q _ d h3 h1, h2, by omega⟩
    · by_cases hz : ((x - 1) :: e).sum = 0
      · refine ⟨List.replicate s.length 0, ?_, by simp, ?_⟩
        · have h1 : x = 1 := by
            rw [List.sum_cons] at hz; omega
          have h2 : e = List.replicate e.length 0 := sum_eq_zero (by rw [List.sum_cons] at hz; omega)
          have h3 : x :: e = unit0 s.length := by
            rw [← hl]
            show x :: e = (List.replicate (e.length + 1) 0).set 0 1
            rw [List.replicate_succ, List.set_cons_zero, ← h2, h1]
          rw [h3]
          exact Child.first
        · have : ∀ k, rank (List.replicate k 0) = 0 := by
            intro k
            induction k with
            | zero => rfl
            | succ k ih => rw [List.replicate_succ]; simp [rank, ih]
          rw [this]
          simp only [rank]
          omega
      · refine ⟨(x - 1) :: e, ?_, by simpa using hl, by simp only [rank]; omega⟩
        have := Child.bump (s := s) (x - 1) e hz
        rwa [show x - 1 + 1 = x by omega] at this

/-! ## Levels -/

/-- **Specification.** The exponent vectors with value `t`. -/
def level (s : List ℤ) (t : ℤ) : Set (List ℕ) := {e | e.length = s.length ∧ dotL e s = t}

theorem dotL_le {s : List ℤ} (hneg : ∀ y ∈ s, y < 0) : ∀ {e : List ℕ}, e.length = s.length → dotL e s ≤ -(e.sum : ℤ) := by
  induction s with
  | nil => intro e h; simp [dotL, List.length_eq_zero_iff.1 h]
  | cons y s ih =>
    intro e h
    cases e with
    | nil => cases h
    | cons x e =>
      have h1 := ih (fun z hz => hneg z (List.mem_cons_of_mem _ hz)) (e := e) (by simpa using h)
      have h2 := hneg y List.mem_cons_self
      have h3 : (x : ℤ) * y ≤ -(x : ℤ) := by nlinarith [Int.natCast_nonneg x]
      rw [dotL_cons, List.sum_cons, Nat.cast_add]
      linarith

theorem le_sum_of_mem {e : List ℕ} {x : ℕ} (h : x ∈ e) : x ≤ e.sum := List.single_le_sum (by simp) x h

theorem level_finite {s : List ℤ} (hneg : ∀ y ∈ s, y < 0) (t : ℤ) : (level s t).Finite := by
  have : (level s t) ⊆ {e : List ℕ | e.length = s.length ∧ ∀ x ∈ e, x ∈ Set.Iic (-t).toNat} := by
    rintro e ⟨h1, h2⟩
    refine ⟨h1, fun x hx => ?_⟩
    have h3 := dotL_le hneg h1
    have h4 := le_sum_of_mem hx
    show x ≤ _
    omega
  refine Set.Finite.subset ?_ this
  exact fin_lists s.length (Set.Iic _) (Set.finite_Iic _)
where
  fin_lists (k : ℕ) (A : Set ℕ) (hA : A.Finite) : {e : List ℕ | e.length = k ∧ ∀ x ∈ e, x ∈ A}.Finite := by
    induction k with
    | zero =>
      refine Set.Finite.subset (Set.finite_singleton []) ?_
      rintro e ⟨h, -⟩
      exact List.length_eq_zero_iff.1 h
    | succ k ih =>
      refine Set.Finite.subset ((hA.prod ih).image fun p => p.1 :: p.2) ?_
      rintro e ⟨h1, h2⟩
      cases e with
      | nil => cases h1
      | cons x e =>
        exact ⟨(x, e), ⟨h2 x List.mem_cons_self, by simpa using h1, fun y hy => h2 y (List.mem_cons_of_mem _ hy)⟩, rfl⟩

/-! ## The hash table -/

/-- The table holds exactly the listed vectors, and every one is found by probing. -/
structure TInv (H : Hashing) (T : Table) (vs : List (List ℕ)) : Prop where
  mem : ∀ k w, T k = some w → w ∈ vs
  inj : ∀ k k' w, T k = some w → T k' = some w → k = k'
  found : ∀ v ∈ vs, ∃ j < H.size, T ((H.hash v + j) % H.size) = some v ∧ ∀ i < j, (T ((H.hash v + i) % H.size)).isSome = true

theorem tinv_single (H : Hashing) (e : List ℕ) : TInv H (Function.update (fun _ => none) (H.hash e) (some e)) [e] := by
  refine ⟨fun k w h => ?_, fun k k' w h h' => ?_, fun v hv => ?_⟩
  · by_cases hk : k = H.hash e
    · subst hk; rw [Function.update_self] at h; cases h; exact List.mem_singleton_self _
    · rw [Function.update_of_ne hk] at h; cases h
  · by_cases hk : k = H.hash e
    · by_cases hk' : k' = H.hash e
      · rw [hk, hk']
      · rw [Function.update_of_ne hk'] at h'; cases h'
    · rw [Function.update_of_ne hk] at h; cases h
  · rw [List.mem_singleton] at hv
    subst hv
    refine ⟨0, H.pos, ?_, fun i hi => absurd hi (by omega)⟩
    rw [Nat.add_zero, Nat.mod_eq_of_lt (H.lt v), Function.update_self]

/-- Linear probing finds a vector exactly if it is in the table; it runs forever only if all places are taken by other vectors. -/
theorem probe_spec (H : Hashing) (T : Table) (vs : List (List ℕ)) (hT : TInv H T vs) (v : List ℕ) :
    (v ∈ vs ∧ probe H v H.size (H.hash v) T = some (true, T)) ∨
    (v ∉ vs ∧ ∃ T', probe H v H.size (H.hash v) T = some (false, T') ∧ TInv H T' (v :: vs)) ∨
    (v ∉ vs ∧ probe H v H.size (H.hash v) T = none ∧ H.size ≤ vs.length) := by
  have key : ∀ left j, j + left = H.size → (∀ i < j, ∃ w, T ((H.hash v + i) % H.size) = some w ∧ v ≠ w) →
      (v ∈ vs ∧ probe H v left ((H.hash v + j) % H.size) T = some (true, T)) ∨
      (v ∉ vs ∧ ∃ T', probe H v left ((H.hash v + j) % H.size) T = some (false, T') ∧ TInv H T' (v :: vs)) ∨
      (v ∉ vs ∧ probe H v left ((H.hash v + j) % H.size) T = none ∧ H.size ≤ vs.length) := by
    intro left
    induction left with
    | zero =>
      intro j hj hpre
      rw [Nat.add_zero] at hj
      subst hj
      have hnot : v ∉ vs := by
        intro hv
        obtain ⟨i, hi, h1, -⟩ := hT.found v hv
        obtain ⟨w, h2, h3⟩ := hpre i hi
        rw [h1] at h2
        cases h2
        exact h3 rfl
      refine Or.inr (Or.inr ⟨hnot, rfl, ?_⟩)
      have hall : ∀ k < H.size, ∃ w, T k = some w := by
        intro k hk
        have hh := H.lt v
        obtain ⟨w, hw, -⟩ := hpre ((k + (H.size - H.hash v)) % H.size) (Nat.mod_lt _ H.pos)
        refine ⟨w, ?_⟩
        rw [← hw]
        congr 1
        rw [Nat.add_mod_mod, show H.hash v + (k + (H.size - H.hash v)) = k + H.size by omega, Nat.add_mod_right, Nat.mod_eq_of_lt hk]
      choose! w hw using hall
      classical
      have hcard : (Finset.range H.size).card ≤ vs.toFinset.card := by
        refine Finset.card_le_card_of_injOn w (fun k hk => ?_) (fun k hk k' hk' h => ?_)
        · have := hw k (Finset.mem_range.1 hk)
          exact List.mem_toFinset.2 (hT.mem k _ this)
        · have h1 := hw k (Finset.mem_range.1 hk)
          have h2 := hw k' (Finset.mem_range.1 hk')
          rw [← h] at h2
          exact hT.inj k k' _ h1 h2
      rw [Finset.card_range] at hcard
      exact hcard.trans (List.toFinset_card_le _)
    | succ left ih =>
      intro j hj hpre
      unfold probe
      cases hs : T ((H.hash v + j) % H.size) with
      | some w =>
        dsimp only
        by_cases hvw : v = w
        · rw [if_pos hvw]
          exact Or.inl ⟨hvw ▸ hT.mem _ _ hs, rfl⟩
        · rw [if_neg hvw, Nat.mod_add_mod, Nat.add_assoc]
          refine ih (j + 1) (by omega) fun i hi => ?_
          rcases Nat.lt_succ_iff_lt_or_eq.1 hi with h | rfl
          · exact hpre i h
          · exact ⟨w, hs, hvw⟩
      | none =>
        dsimp only
        have hnot : v ∉ vs := by
          intro hv
          obtain ⟨i, hi, h1, h2⟩ := hT.found v hv
          rcases Nat.lt_trichotomy i j with h | rfl | h
          · obtain ⟨w, h3, h4⟩ := hpre i h
            rw [h1] at h3
            cases h3
            exact h4 rfl
          · rw [hs] at h1; cases h1
          · have := h2 j h
            rw [hs] at this
            cases this
        refine Or.inr (Or.inl ⟨hnot, _, rfl, ⟨fun k w h => ?_, fun k k' w h h' => ?_, fun u hu => ?_⟩⟩)
        · by_cases hk : k = (H.hash v + j) % H.size
          · subst hk; rw [Function.update_self] at h; cases h; exact List.mem_cons_self
          · rw [Function.update_of_ne hk] at h; exact List.mem_cons_of_mem _ (hT.mem _ _ h)
        · by_cases hk : k = (H.hash v + j) % H.size
          · by_cases hk' : k' = (H.hash v + j) % H.size
            · rw [hk, hk']
            · subst hk
              rw [Function.update_self] at h
              rw [Function.update_of_ne hk'] at h'
              cases h
              exact absurd (hT.mem _ _ h') hnot
          · by_cases hk' : k' = (H.hash v + j) % H.size
            · subst hk'
              rw [Function.update_self] at h'
              rw [Function.update_of_ne hk] at h
              cases h'
              exact absurd (hT.mem _ _ h) hnot
            · rw [Function.update_of_ne hk] at h
              rw [Function.update_of_ne hk'] at h'
              exact hT.inj _ _ _ h h'
        · rcases List.mem_cons.1 hu with rfl | hu
          · refine ⟨j, by omega, Function.update_self _ _ _, fun i hi => ?_⟩
            obtain ⟨w, h3, -⟩ := hpre i hi
            by_cases hk : (H.hash u + i) % H.size = (H.hash u + j) % H.size
            · rw [hk, Function.update_self]; rfl
            · rw [Function.update_of_ne hk, h3]; rfl
          · obtain ⟨i, hi, h1, h2⟩ := hT.found u hu
            have up : ∀ k, (T k).isSome = true → (Function.update T ((H.hash v + j) % H.size) (some v) k).isSome = true := by
              intro k hk
              by_cases hkk : k = (H.hash v + j) % H.size
              · rw [hkk, Function.update_self]; rfl
              · rw [Function.update_of_ne hkk]; exact hk
            refine ⟨i, hi, ?_, fun i' hi' => up _ (h2 i' hi')⟩
            rw [Function.update_of_ne, h1]
            intro hcon
            rw [hcon, hs] at h1
            cases h1
  have := key H.size 0 (by omega) (fun i hi => absurd hi (by omega))
  rwa [Nat.add_zero, Nat.mod_eq_of_lt (H.lt v)] at this

end Verif.Digging
