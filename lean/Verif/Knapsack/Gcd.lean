import Verif.Knapsack.Mobius
import Verif.Knapsack.Bernoulli
import Mathlib.Data.List.Perm.Subperm
import Mathlib.Data.Nat.Choose.Basic

/-! C30: both enumerations of the gcds of sublists. -/

namespace Latte.Knapsack

/-! ### Specification -/

/-- the gcd of a list of integers -/
def listGcd (S : List Int) : Int := S.foldr (fun x g => (Int.gcd x g : Int)) 0

/-- the gcds wanted for the coefficient of `t^(N-k)`: those of the sublists with at least `N+1-k` elements -/
def Wanted (alpha : List Int) (k : Nat) (x : Int) : Prop :=
  ∃ S : List Int, S.Sublist alpha ∧ alpha.length - k ≤ S.length ∧ listGcd S = x

/-! ### gcd lemmas -/

theorem listGcd_nonneg (S : List Int) : 0 ≤ listGcd S := by
  cases S with
  | nil => simp [listGcd]
  | cons x xs => simp [listGcd]

theorem listGcd_dvd {S : List Int} {x : Int} (h : x ∈ S) : listGcd S ∣ x := by
  induction S with
  | nil => cases h
  | cons y ys ih =>
    simp only [listGcd, List.foldr_cons]
    rcases List.mem_cons.1 h with rfl | h
    · exact Int.gcd_dvd_left ..
    · exact (Int.gcd_dvd_right ..).trans (ih h)

theorem dvd_listGcd {S : List Int} {d : Int} (h : ∀ x ∈ S, d ∣ x) : d ∣ listGcd S := by
  induction S with
  | nil => exact dvd_zero _
  | cons y ys ih =>
    simp only [listGcd, List.foldr_cons]
    exact Int.dvd_coe_gcd (h y (List.mem_cons_self ..)) (ih fun x hx => h x (List.mem_cons_of_mem _ hx))

theorem eq_of_dvd_dvd {a b : Int} (ha : 0 ≤ a) (hb : 0 ≤ b) (h1 : a ∣ b) (h2 : b ∣ a) : a = b :=
  Int.dvd_antisymm ha hb h1 h2

theorem listGcd_unique {S : List Int} {g : Int} (h0 : 0 ≤ g) (h1 : ∀ x ∈ S, g ∣ x)
    (h2 : ∀ d, (∀ x ∈ S, d ∣ x) → d ∣ g) : listGcd S = g :=
  eq_of_dvd_dvd (listGcd_nonneg S) h0 (h2 _ fun _ hx => listGcd_dvd hx) (dvd_listGcd h1)

theorem listGcd_pos {S : List Int} (hne : S ≠ []) (h : ∀ x ∈ S, 0 < x) : 0 < listGcd S := by
  obtain ⟨x, hx⟩ := List.exists_mem_of_ne_nil S hne
  rcases (listGcd_nonneg S).lt_or_eq with h1 | h1
  · exact h1
  · have := listGcd_dvd hx
    rw [← h1] at this
    have := Int.zero_dvd.1 this
    have := h x hx
    omega

theorem listGcd_append_singleton (S : List Int) (a : Int) (ha : 0 < a) :
    listGcd (S ++ [a]) = (if S = [] then a else (Int.gcd (listGcd S) a : Int)) := by
  apply listGcd_unique
  · split_ifs <;> omega
  · intro x hx
    rcases List.mem_append.1 hx with h | h
    · rw [if_neg (List.ne_nil_of_mem h)]
      exact (Int.gcd_dvd_left ..).trans (listGcd_dvd h)
    · have : x = a := by simpa using h
      subst this
      split_ifs
      · exact dvd_rfl
      · exact Int.gcd_dvd_right ..
  · intro d hd
    have h1 : d ∣ a := hd a (by simp)
    split_ifs
    · exact h1
    · exact Int.dvd_coe_gcd (dvd_listGcd fun x hx => hd x (by simp [hx])) h1

/-! ### the sorted vector -/

theorem bubbleR_spec (r : List Int) (g : Int) (hs : r.Pairwise (· > ·)) (hg : g ∉ r) :
    ∃ l1 l2, r = l1 ++ l2 ∧ bubbleR r g = l1 ++ g :: l2 ∧ (∀ x ∈ l1, g < x) ∧ (∀ x ∈ l2, x < g) := by
  induction r with
  | nil => exact ⟨[], [], rfl, rfl, by simp, by simp⟩
  | cons x xs ih =>
    obtain ⟨hx, hxs⟩ := List.pairwise_cons.1 hs
    unfold bubbleR
    by_cases h : x > g
    · rw [if_pos h]
      obtain ⟨l1, l2, e1, e2, h1, h2⟩ := ih hxs (fun hm => hg (List.mem_cons_of_mem _ hm))
      refine ⟨x :: l1, l2, by rw [e1]; rfl, by rw [e2]; rfl, ?_, h2⟩
      intro y hy
      rcases List.mem_cons.1 hy with rfl | hy
      · exact h
      · exact h1 y hy
    · rw [if_neg h]
      have hlt : x < g := by
        have : x ≠ g := fun e => hg (by simp [e])
        omega
      refine ⟨[], x :: xs, rfl, rfl, by simp, ?_⟩
      intro y hy
      rcases List.mem_cons.1 hy with rfl | hy
      · exact hlt
      · have := hx y hy; omega

theorem insertBack_spec (l : List Int) (g : Int) (hs : l.Pairwise (· < ·)) (hg : g ∉ l) :
    ∃ l1 l2, l = l1 ++ l2 ∧ insertBack l g = l1 ++ g :: l2 ∧ (∀ x ∈ l1, x < g) ∧ (∀ x ∈ l2, g < x) := by
  have hr : l.reverse.Pairwise (· > ·) := by rw [List.pairwise_reverse]; exact hs
  obtain ⟨a, b, e1, e2, h1, h2⟩ := bubbleR_spec l.reverse g hr (by simpa using hg)
  refine ⟨b.reverse, a.reverse, ?_, ?_, by simpa using h2, by simpa using h1⟩
  · have := congrArg List.reverse e1
    simpa using this
  · unfold insertBack; rw [e2]; simp

theorem insertBack_sorted (l : List Int) (g : Int) (hs : l.Pairwise (· < ·)) (hg : g ∉ l) :
    (insertBack l g).Pairwise (· < ·) ∧ ∀ x, x ∈ insertBack l g ↔ x = g ∨ x ∈ l := by
  obtain ⟨l1, l2, e1, e2, h1, h2⟩ := insertBack_spec l g hs hg
  rw [e2, e1]
  rw [e1] at hs
  obtain ⟨p1, p2, p3⟩ := List.pairwise_append.1 hs
  refine ⟨List.pairwise_append.2 ⟨p1, List.pairwise_cons.2 ⟨h2, p2⟩, ?_⟩, ?_⟩
  · intro a ha b hb
    rcases List.mem_cons.1 hb with rfl | hb
    · exact h1 a ha
    · exact p3 a ha b hb
  · intro x
    simp only [List.mem_append, List.mem_cons]
    tauto

theorem sorted_nodup {l : List Int} (h : l.Pairwise (· < ·)) : l.Nodup :=
  h.imp (fun hab => ne_of_lt hab)

theorem gcd_gcd_self (x a : Int) : (Int.gcd (Int.gcd x a : Int) a : Int) = (Int.gcd x a : Int) := by
  apply eq_of_dvd_dvd (by positivity) (by positivity)
  · exact Int.gcd_dvd_left ..
  · exact Int.dvd_coe_gcd dvd_rfl (Int.gcd_dvd_right ..)

theorem jLoop_spec (a : Int) (O0 : List Int) (fuel j : Nat) (O : List Int)
    (hs : O.Pairwise (· < ·)) (hpos : ∀ x ∈ O, 0 < x)
    (hsub0 : ∀ x ∈ O0, x ∈ O) (hsub : ∀ x ∈ O, x ∈ O0 ∨ ∃ y ∈ O0, x = (Int.gcd y a : Int))
    (hclosed : ∀ x ∈ O.take j, (Int.gcd x a : Int) ∈ O)
    (hjl : j ≤ O.length) (hfuel : 2 * O0.length < fuel + j) :
    ∃ O', jLoop a fuel j O = some O' ∧ O'.Pairwise (· < ·) ∧ (∀ x ∈ O', 0 < x) ∧
      ∀ x, x ∈ O' ↔ x ∈ O0 ∨ ∃ y ∈ O0, x = (Int.gcd y a : Int) := by
  have hlenle : ∀ P : List Int, P.Pairwise (· < ·) → (∀ x ∈ P, x ∈ O0 ∨ ∃ y ∈ O0, x = (Int.gcd y a : Int)) →
      P.length ≤ 2 * O0.length := by
    intro P hP hsubP
    have hss : P ⊆ O0 ++ O0.map (fun y => (Int.gcd y a : Int)) := by
      intro x hx
      rcases hsubP x hx with h | ⟨y, hy, rfl⟩
      · exact List.mem_append_left _ h
      · exact List.mem_append_right _ (List.mem_map.2 ⟨y, hy, rfl⟩)
    have := (List.subperm_of_subset (sorted_nodup hP) hss).length_le
    simp at this; omega
  induction fuel generalizing j O with
  | zero =>
    unfold jLoop
    have h1 := hlenle O hs hsub
    exfalso
    omega
  | succ fuel ih =>
    unfold jLoop
    by_cases hj : j < O.length
    · rw [List.getElem?_eq_getElem hj]
      simp only
      have hx : O[j] ∈ O := List.getElem_mem hj
      have hgmem : ∀ z, z = (Int.gcd O[j] a : Int) → z ∈ O0 ∨ ∃ y ∈ O0, z = (Int.gcd y a : Int) := by
        rintro z rfl
        rcases hsub _ hx with h | ⟨y, hy, e⟩
        · exact Or.inr ⟨_, h, rfl⟩
        · exact Or.inr ⟨y, hy, by rw [e, gcd_gcd_self]⟩
      by_cases hc : O.contains (Int.gcd O[j] a : Int) = true
      · rw [if_pos hc]
        apply ih (j + 1) O hs hpos hsub0 hsub _ (by omega) (by omega)
        intro x hxt
        rw [List.take_succ_eq_append_getElem hj] at hxt
        rcases List.mem_append.1 hxt with h | h
        · exact hclosed x h
        · have : x = O[j] := by simpa using h
          rw [this]; simpa using hc
      · rw [if_neg hc]
        have hg : (Int.gcd O[j] a : Int) ∉ O := by simpa using hc
        obtain ⟨hs', hm'⟩ := insertBack_sorted O _ hs hg
        obtain ⟨l1, l2, e1, e2, h1, h2⟩ := insertBack_spec O _ hs hg
        have hgpos : 0 < (Int.gcd O[j] a : Int) := by
          have := Int.gcd_pos_of_ne_zero_left a (show O[j] ≠ 0 from (hpos _ hx).ne')
          exact_mod_cast this
        have hglt : (Int.gcd O[j] a : Int) < O[j] := by
          have hle := Int.le_of_dvd (hpos _ hx) (Int.gcd_dvd_left (a := O[j]) (b := a))
          exact lt_of_le_of_ne hle (fun e => hg (by rw [e]; exact hx))
        have hl1 : l1.length ≤ j := by
          by_contra hlt
          have hmem : O[j] ∈ l1 := by
            have : O[j]? = l1[j]? := by rw [e1, List.getElem?_append_left (by omega)]
            rw [List.getElem?_eq_getElem hj] at this
            exact List.mem_of_getElem? this.symm
          have := h1 _ hmem
          omega
        apply ih (j + 1) _ hs'
        · intro x hx'
          rcases (hm' x).1 hx' with rfl | h
          · exact hgpos
          · exact hpos x h
        · intro x hx'; exact (hm' x).2 (Or.inr (hsub0 x hx'))
        · intro x hx'
          rcases (hm' x).1 hx' with h | h
          · exact hgmem x h
          · exact hsub x h
        · intro x hxt
          rw [hm']
          rw [e2, List.take_append, List.take_of_length_le (by omega : l1.length ≤ j + 1)] at hxt
          have hj1 : j + 1 - l1.length = (j - l1.length) + 1 := by omega
          rw [hj1, List.take_succ_cons] at hxt
          have htake : O.take j = l1 ++ l2.take (j - l1.length) := by
            rw [e1, List.take_append, List.take_of_length_le hl1]
          rcases List.mem_append.1 hxt with h | h
          · right; apply hclosed; rw [htake]; exact List.mem_append_left _ h
          · rcases List.mem_cons.1 h with rfl | h
            · left; exact gcd_gcd_self _ _
            · right; apply hclosed; rw [htake]; exact List.mem_append_right _ h
        · have := congrArg List.length e2
          have := congrArg List.length e1
          simp at *
          omega
        · omega
    · rw [List.getElem?_eq_none (by omega)]
      refine ⟨O, rfl, hs, hpos, fun x => ⟨hsub x, ?_⟩⟩
      rintro (h | ⟨y, hy, rfl⟩)
      · exact hsub0 x h
      · apply hclosed
        rw [List.take_of_length_le (by omega)]
        exact hsub0 y hy

theorem jLoop_mono (a : Int) (f : Nat) : ∀ (j : Nat) (O r : List Int), jLoop a f j O = some r →
    jLoop a (f + 1) j O = some r := by
  induction f with
  | zero => intro j O r h; simp [jLoop] at h
  | succ f ih =>
    intro j O r h
    unfold jLoop at h ⊢
    cases hO : O[j]? with
    | none => rw [hO] at h; exact h
    | some x =>
      rw [hO] at h
      simp only at h ⊢
      exact ih _ _ _ h

/-- the sorted list of the gcds of the non-empty sublists of `pre` -/
def GcdsOf (pre out : List Int) : Prop :=
  out.Pairwise (· < ·) ∧ (∀ x ∈ out, 0 < x) ∧
    ∀ x, x ∈ out ↔ ∃ S : List Int, S.Sublist pre ∧ S ≠ [] ∧ listGcd S = x

theorem sublist_snoc {S pre : List Int} {a : Int} :
    S.Sublist (pre ++ [a]) ↔ S.Sublist pre ∨ ∃ T, T.Sublist pre ∧ S = T ++ [a] := by
  rw [List.sublist_append_iff]
  constructor
  · rintro ⟨l1, l2, rfl, h1, h2⟩
    rcases List.sublist_singleton.1 h2 with rfl | rfl
    · left; simpa using h1
    · right; exact ⟨l1, h1, rfl⟩
  · rintro (h | ⟨T, h, rfl⟩)
    · exact ⟨S, [], by simp, h, by simp⟩
    · exact ⟨T, [a], rfl, h, List.Sublist.refl _⟩

theorem gcdsOf_step {pre out out' : List Int} {a : Int} (ha : 0 < a) (h : GcdsOf pre out)
    (hs' : out'.Pairwise (· < ·)) (hp' : ∀ x ∈ out', 0 < x)
    (hm' : ∀ x, x ∈ out' ↔ x ∈ out ∨ ∃ y ∈ out, x = (Int.gcd y a : Int)) :
    GcdsOf (pre ++ [a]) (if out'.contains a then out' else insertBack out' a) := by
  obtain ⟨hs, hp, hm⟩ := h
  have key : ∀ x, (x = a ∨ x ∈ out') ↔ ∃ S : List Int, S.Sublist (pre ++ [a]) ∧ S ≠ [] ∧ listGcd S = x := by
    intro x
    rw [hm']
    constructor
    · rintro (rfl | h | ⟨y, hy, rfl⟩)
      · refine ⟨[x], List.singleton_sublist.2 (by simp), by simp, ?_⟩
        have := listGcd_append_singleton [] x ha
        simpa using this
      · obtain ⟨S, h1, h2, h3⟩ := (hm x).1 h
        exact ⟨S, sublist_snoc.2 (Or.inl h1), h2, h3⟩
      · obtain ⟨S, h1, h2, h3⟩ := (hm y).1 hy
        refine ⟨S ++ [a], sublist_snoc.2 (Or.inr ⟨S, h1, rfl⟩), by simp, ?_⟩
        rw [listGcd_append_singleton S a ha, if_neg h2, h3]
    · rintro ⟨S, h1, h2, h3⟩
      rcases sublist_snoc.1 h1 with h | ⟨T, hT, rfl⟩
      · exact Or.inr (Or.inl ((hm x).2 ⟨S, h, h2, h3⟩))
      · rw [listGcd_append_singleton T a ha] at h3
        split_ifs at h3 with hT0
        · exact Or.inl h3.symm
        · exact Or.inr (Or.inr ⟨listGcd T, (hm _).2 ⟨T, hT, hT0, rfl⟩, h3.symm⟩)
  by_cases hc : out'.contains a = true
  · rw [if_pos hc]
    refine ⟨hs', hp', fun x => ?_⟩
    rw [← key]
    constructor
    · exact Or.inr
    · rintro (rfl | h)
      · simpa using hc
      · exact h
  · rw [if_neg hc]
    obtain ⟨hs2, hm2⟩ := insertBack_sorted out' a hs' (by simpa using hc)
    refine ⟨hs2, ?_, fun x => by rw [hm2, key]⟩
    intro x hx
    rcases (hm2 x).1 hx with rfl | h
    · exact ha
    · exact hp' x h

theorem jLoop_mono_le (a : Int) {f f' : Nat} (h : f ≤ f') {j : Nat} {O r : List Int} (hr : jLoop a f j O = some r) :
    jLoop a f' j O = some r := by
  induction h with
  | refl => exact hr
  | step _ ih => exact jLoop_mono a _ _ _ _ ih

theorem iLoop_spec (as : List Int) : ∀ (pre out : List Int), (∀ a ∈ as, 0 < a) → GcdsOf pre out →
    ∃ F out', (∀ fuel ≥ F, iLoop fuel as out = some out') ∧ GcdsOf (pre ++ as) out' := by
  induction as with
  | nil => intro pre out _ h; exact ⟨0, out, fun _ _ => rfl, by simpa using h⟩
  | cons a as ih =>
    intro pre out hpos h
    have ha : 0 < a := hpos a (by simp)
    obtain ⟨O', e1, h1, h2, h3⟩ := jLoop_spec a out (2 * out.length + 1) 0 out h.1 h.2.1 (fun _ h => h) (fun _ h => Or.inl h)
      (by simp) (Nat.zero_le _) (by omega)
    obtain ⟨F, out', hF, hG⟩ := ih (pre ++ [a]) _ (fun x hx => hpos x (by simp [hx])) (gcdsOf_step ha h h1 h2 h3)
    refine ⟨max F (2 * out.length + 1), out', fun fuel hf => ?_, by simpa using hG⟩
    unfold iLoop
    rw [jLoop_mono_le a (le_trans (le_max_right _ _) hf) e1]
    exact hF fuel (le_trans (le_max_left _ _) hf)

/-! ### the filter -/

theorem filter_wanted {alpha : List Int} {k : Nat} (hk : k < alpha.length) (x : Int) :
    ((∃ S : List Int, S.Sublist alpha ∧ S ≠ [] ∧ listGcd S = x) ∧
      (alpha.countP fun a => a.emod x == 0) ≥ alpha.length - k) ↔ Wanted alpha k x := by
  constructor
  · rintro ⟨⟨S, h1, h2, h3⟩, hc⟩
    refine ⟨alpha.filter (fun a => a.emod x == 0), List.filter_sublist, ?_, ?_⟩
    · rw [← List.countP_eq_length_filter]; exact hc
    · have hx0 : 0 ≤ x := by rw [← h3]; exact listGcd_nonneg S
      apply listGcd_unique hx0
      · intro y hy
        have := (List.mem_filter.1 hy).2
        exact Int.dvd_of_emod_eq_zero (beq_iff_eq.1 this)
      · intro d hd
        rw [← h3]
        apply dvd_listGcd
        intro y hy
        apply hd
        refine List.mem_filter.2 ⟨h1.subset hy, ?_⟩
        have : x ∣ y := by rw [← h3]; exact listGcd_dvd hy
        exact beq_iff_eq.2 (Int.emod_eq_zero_of_dvd this)
  · rintro ⟨S, h1, h2, h3⟩
    have hne : S ≠ [] := by
      rintro rfl
      simp at h2; omega
    refine ⟨⟨S, h1, hne, h3⟩, h2.trans ?_⟩
    have e : S.countP (fun a => a.emod x == 0) = S.length := by
      rw [List.countP_eq_length]
      intro y hy
      have : x ∣ y := by rw [← h3]; exact listGcd_dvd hy
      exact beq_iff_eq.2 (Int.emod_eq_zero_of_dvd this)
    rw [← e]
    exact h1.countP_le

theorem foldl_insert (P : Int → Prop) [DecidablePred P] (out : List Int) : ∀ (gs : List MPair), (gs.map MPair.gcd).Nodup →
    ((out.foldl (fun gs o => if P o then insertGCD gs o else gs) gs).map MPair.gcd).Nodup ∧
    ∀ x, x ∈ (out.foldl (fun gs o => if P o then insertGCD gs o else gs) gs).map MPair.gcd ↔
      (x ∈ out ∧ P x) ∨ x ∈ gs.map MPair.gcd := by
  induction out with
  | nil => intro gs h; exact ⟨h, by simp⟩
  | cons o out ih =>
    intro gs h
    rw [List.foldl_cons]
    by_cases hP : P o
    · rw [if_pos hP]
      obtain ⟨h1, h2⟩ := c29_insertGCD gs o h
      obtain ⟨h3, h4⟩ := ih _ h1
      refine ⟨h3, fun x => ?_⟩
      rw [h4, h2, List.mem_cons]
      constructor
      · rintro (⟨h, h'⟩ | rfl | h)
        · exact Or.inl ⟨Or.inr h, h'⟩
        · exact Or.inl ⟨Or.inl rfl, hP⟩
        · exact Or.inr h
      · rintro (⟨rfl | h, h'⟩ | h)
        · exact Or.inr (Or.inl rfl)
        · exact Or.inl ⟨h, h'⟩
        · exact Or.inr (Or.inr h)
    · rw [if_neg hP]
      obtain ⟨h3, h4⟩ := ih gs h
      refine ⟨h3, fun x => ?_⟩
      rw [h4, List.mem_cons]
      constructor
      · rintro (⟨h, h'⟩ | h)
        · exact Or.inl ⟨Or.inr h, h'⟩
        · exact Or.inr h
      · rintro (⟨rfl | h, h'⟩ | h)
        · exact absurd h' hP
        · exact Or.inl ⟨h, h'⟩
        · exact Or.inr h

/-- C30, dynamic programming method: for all positive coefficient lists of length `N+1` and all `k ≤ N`, the method
terminates and adds exactly the gcds of the sublists with at least `N+1-k` elements, each once. -/
theorem c30_entire_list (alpha : List Int) (hpos : ∀ a ∈ alpha, 0 < a) (k : Nat) (hk : k < alpha.length)
    (gcds : List MPair) (hnd : (gcds.map MPair.gcd).Nodup) :
    ∃ F res, (∀ fuel ≥ F, everyGCDFromEntireList fuel alpha k gcds = some res) ∧ (res.map MPair.gcd).Nodup ∧
      ∀ x, x ∈ res.map MPair.gcd ↔ Wanted alpha k x ∨ x ∈ gcds.map MPair.gcd := by
  obtain ⟨F, out, hF, hG⟩ := iLoop_spec alpha [] [] hpos ⟨List.Pairwise.nil, by simp, by
    intro x; simp only [List.not_mem_nil, false_iff]; rintro ⟨S, h1, h2, _⟩; exact h2 (List.sublist_nil.1 h1)⟩
  obtain ⟨h1, h2⟩ := foldl_insert (fun o => (alpha.countP fun a => a.emod o == 0) ≥ alpha.length - k) out gcds hnd
  refine ⟨F, _, fun fuel hf => ?_, h1, fun x => ?_⟩
  · unfold everyGCDFromEntireList
    rw [hF fuel hf]
    rfl
  · rw [h2, ← filter_wanted hk x, hG.2.2 x]
    simp

/-- the hypotheses of the Möbius theorem hold for the gcds found -/
theorem wanted_closed {alpha : List Int} (hpos : ∀ a ∈ alpha, 0 < a) {k : Nat} (hk : k < alpha.length) (l : List MPair)
    (hl : ∀ x, x ∈ l.map MPair.gcd ↔ Wanted alpha k x) (h1 : listGcd alpha = 1) :
    (∀ p ∈ l, 0 < p.gcd) ∧ 1 ∈ l.map MPair.gcd ∧ GcdClosed l := by
  have hne : ∀ S : List Int, alpha.length - k ≤ S.length → S ≠ [] := by
    rintro S h rfl; simp at h; omega
  refine ⟨?_, (hl 1).2 ⟨alpha, List.Sublist.refl _, Nat.sub_le .., h1⟩, ?_⟩
  · intro p hp
    obtain ⟨S, a1, a2, a3⟩ := (hl p.gcd).1 (List.mem_map_of_mem hp)
    rw [← a3]
    exact listGcd_pos (hne S a2) fun x hx => hpos x (a1.subset hx)
  · intro p hp q hq
    obtain ⟨S, a1, a2, a3⟩ := (hl p.gcd).1 (List.mem_map_of_mem hp)
    obtain ⟨T, b1, b2, b3⟩ := (hl q.gcd).1 (List.mem_map_of_mem hq)
    set g : Int := (Int.gcd p.gcd q.gcd : Int) with hg
    have hS : ∀ y ∈ S, g ∣ y := fun y hy => (Int.gcd_dvd_left ..).trans (by rw [← a3]; exact listGcd_dvd hy)
    have hT : ∀ y ∈ T, g ∣ y := fun y hy => (Int.gcd_dvd_right ..).trans (by rw [← b3]; exact listGcd_dvd hy)
    have hw : Wanted alpha k g := by
      refine ⟨alpha.filter (fun a => decide (g ∣ a)), List.filter_sublist, ?_, ?_⟩
      · refine a2.trans ?_
        rw [← List.countP_eq_length_filter]
        have e : S.countP (fun a => decide (g ∣ a)) = S.length := by
          rw [List.countP_eq_length]; intro y hy; simpa using hS y hy
        rw [← e]
        exact a1.countP_le
      · apply listGcd_unique (by rw [hg]; positivity)
        · intro y hy; simpa using (List.mem_filter.1 hy).2
        · intro d hd
          apply Int.dvd_coe_gcd
          · rw [← a3]
            exact dvd_listGcd fun y hy => hd y (List.mem_filter.2 ⟨a1.subset hy, by simpa using hS y hy⟩)
          · rw [← b3]
            exact dvd_listGcd fun y hy => hd y (List.mem_filter.2 ⟨b1.subset hy, by simpa using hT y hy⟩)
    obtain ⟨s, hs, e⟩ := List.mem_map.1 ((hl g).2 hw)
    exact ⟨s, hs, e⟩

end Latte.Knapsack
