import Verif.Digging.Level

/-!
# `Calculate_Next_Highest_Term`

The heap of a cone always holds what is needed to find the next level, the level is listed completely and without repetition, and the call ends.
-/

namespace Verif.Digging

variable {n : ℕ}

/-- What is known of the heap when the levels down to `t` have been processed. -/
structure VInv (s : List ℤ) (t : ℤ) (h : VHeap) : Prop where
  ok : h.Ok vkey
  sound : ∀ p ∈ h.elems, p.1.length = s.length ∧ p.2 = dotL p.1 s ∧ p.1.sum ≠ 0 ∧ p.2 < t
  complete : ∀ q f, q.length = s.length → Child s q f → t ≤ dotL q s → dotL f s < t → (f, dotL f s) ∈ h.elems

/-- The same within the loop for level `t`, with the vectors `vs` processed. -/
structure LInv (s : List ℤ) (t : ℤ) (h : VHeap) (vs : List (List ℕ)) : Prop where
  ok : h.Ok vkey
  sound : ∀ p ∈ h.elems, p.1.length = s.length ∧ p.2 = dotL p.1 s ∧ p.1.sum ≠ 0 ∧ p.2 ≤ t
  lev : ∀ v ∈ vs, v ∈ level s t
  nodup : vs.Nodup
  complete : ∀ q f, q.length = s.length → Child s q f → (t < dotL q s ∨ q ∈ vs) → dotL f s ≤ t → f ∈ vs ∨ (f, dotL f s) ∈ h.elems

/-- The products of a cone as sorted by the constructor. -/
structure Sorted (s : List ℤ) : Prop where
  neg : ∀ y ∈ s, y < 0
  sorted : s.Pairwise (· ≥ ·)
  ne : s ≠ []

variable {s : List ℤ}

theorem heap_max (hs : Sorted s) {t : ℤ} {h : VHeap} (ht : t ≤ 0) (hv : VInv s t h) :
    ∀ (k : ℕ) (e : List ℕ), rank e = k → e.length = s.length → dotL e s < t → ∃ p ∈ h.elems, dotL e s ≤ p.2 := by
  intro k
  induction k using Nat.strong_induction_on with
  | _ k ih =>
    intro e hk hl hd
    have hsum : e.sum ≠ 0 := by
      intro h0
      rw [sum_eq_zero h0, dotL_zero] at hd
      omega
    obtain ⟨q, hc, hq, hr⟩ := exists_parent s e hl hsum
    have hle := (child_spec hs.neg hs.sorted hs.ne hc hq).2.2
    by_cases hqt : t ≤ dotL q s
    · exact ⟨_, hv.complete q e hq hc hqt hd, le_rfl⟩
    · obtain ⟨p, hp, hp2⟩ := ih (rank q) (hk ▸ hr) q rfl hq (by omega)
      exact ⟨p, hp, hle.trans hp2⟩

theorem heap_nonempty (hs : Sorted s) {t : ℤ} {h : VHeap} (ht : t ≤ 0) (hv : VInv s t h) : h.elems ≠ 0 := by
  obtain ⟨y, s', rfl⟩ := List.exists_cons_of_ne_nil hs.ne
  have hy := hs.neg y List.mem_cons_self
  have hl : (((-t).toNat + 1) :: List.replicate s'.length 0).length = (y :: s').length := by simp
  have hd : dotL (((-t).toNat + 1) :: List.replicate s'.length 0) (y :: s') < t := by
    have := dotL_le hs.neg hl
    rw [List.sum_cons, Nat.cast_add, Nat.cast_add] at this
    have h2 : ((-t).toNat : ℤ) = -t := by omega
    rw [h2] at this
    have h3 : (0 : ℤ) ≤ ((List.replicate s'.length 0).sum : ℕ) := Int.natCast_nonneg _
    push_cast at this h3
    omega
  obtain ⟨p, hp, -⟩ := heap_max hs ht hv _ _ rfl hl hd
  intro h0
  rw [h0] at hp
  exact Multiset.notMem_zero _ hp

theorem addSuccessors_spec (hs : Sorted s) {e : List ℕ} (hl : e.length = s.length) (he : e.sum ≠ 0) {h : VHeap} (ho : h.Ok vkey) :
    ∃ h' ch, addSuccessors s e (dotL e s) h = some h' ∧ h'.Ok vkey ∧ h'.elems = ch + h.elems ∧ ch.card ≤ 2 ∧
      (∀ p ∈ ch, ∃ f, p = (f, dotL f s) ∧ Child s e f) ∧ ∀ f, Child s e f → (f, dotL f s) ∈ ch := by
  obtain ⟨y, s', rfl⟩ := List.exists_cons_of_ne_nil hs.ne
  cases e with
  | nil => exact absurd rfl he
  | cons x e =>
    have hb : dotL ((x + 1) :: e) (y :: s') = dotL (x :: e) (y :: s') + y := by
      rw [dotL_cons, dotL_cons]; push_cast; ring
    have hz : ∀ k, (List.replicate k 0).sum = 0 := by intro k; simp
    obtain ⟨h1, e1, o1, m1, -⟩ := c78_add vkey ((x + 1) :: e, dotL (x :: e) (y :: s') + y) h ho
    rcases moveFirst_spec (x :: e) (y :: s') hl he hs.sorted with hm | ⟨f, d, hm, h2, h3, h4, h5⟩
    · refine ⟨h1, {((x + 1) :: e, dotL (x :: e) (y :: s') + y)}, ?_, o1, by rw [m1, Multiset.singleton_add], by simp, ?_, ?_⟩
      · unfold addSuccessors
        simp only [e1, hm]
      · intro p hp
        rw [Multiset.mem_singleton] at hp
        exact ⟨_, by rw [hp, hb], Child.bump x e he⟩
      · intro f hf
        generalize hq : x :: e = q at hf
        cases hf with
        | first => exact absurd (by rw [hq]; exact hz _) he
        | bump x' e' _ => cases hq; rw [hb]; exact Multiset.mem_singleton_self _
        | move _ _ d _ hm' => rw [← hq, hm] at hm'; cases hm'
    · obtain ⟨h2', e2, o2, m2, -⟩ := c78_add vkey (f, dotL (x :: e) (y :: s') + d) h1 o1
      refine ⟨h2', (f, dotL (x :: e) (y :: s') + d) ::ₘ {((x + 1) :: e, dotL (x :: e) (y :: s') + y)}, ?_, o2, by rw [m2, m1, Multiset.cons_add, Multiset.singleton_add], by simp, ?_, ?_⟩
      · unfold addSuccessors
        simp only [e1, hm, e2]
      · intro p hp
        rcases Multiset.mem_cons.1 hp with hp | hp
        · exact ⟨f, by rw [hp, h3], Child.move _ _ d he hm⟩
        · rw [Multiset.mem_singleton] at hp
          exact ⟨_, by rw [hp, hb], Child.bump x e he⟩
      · intro f' hf
        generalize hq : x :: e = q at hf
        cases hf with
        | first => exact absurd (by rw [hq]; exact hz _) he
        | bump x' e' _ => cases hq; rw [hb]; exact Multiset.mem_cons_of_mem (Multiset.mem_singleton_self _)
        | move _ _ d' _ hm' =>
          rw [← hq, hm] at hm'
          cases hm'
          rw [h3, hq]
          exact Multiset.mem_cons_self _ _

/-- How many more rounds of the loop are possible. -/
noncomputable def work (s : List ℤ) (t : ℤ) (h : VHeap) (vs : List (List ℕ)) : ℕ :=
  2 * ((level s t).ncard - vs.length) + (h.elems.filter fun p => p.2 = t).card

/-- `vs` lists the level, each vector once. -/
def Lists (s : List ℤ) (t : ℤ) (vs : List (List ℕ)) : Prop := vs.Nodup ∧ ∀ e, e ∈ vs ↔ e ∈ level s t

theorem Lists.length {s : List ℤ} {t : ℤ} {vs : List (List ℕ)} (h : Lists s t vs) : vs.length = (level s t).ncard := by
  have : (level s t) = (vs.toFinset : Set (List ℕ)) := by
    ext e; simp [h.2 e]
  rw [this, Set.ncard_coe_finset, List.toFinset_card_of_nodup h.1]

theorem length_le_level (hs : Sorted s) {t : ℤ} {vs : List (List ℕ)} (hn : vs.Nodup) (hl : ∀ v ∈ vs, v ∈ level s t) : vs.length ≤ (level s t).ncard := by
  rw [← List.toFinset_card_of_nodup hn, ← Set.ncard_coe_finset]
  refine Set.ncard_le_ncard ?_ (level_finite hs.neg t)
  intro e he
  exact hl e (by simpa using he)

theorem nextLoop_spec (hs : Sorted s) (H : Hashing) {t : ℤ} (ht : t < 0) (sg : ℤ) (hsg : sg = 1 ∨ sg = -1) :
    ∀ (fuel : ℕ) (h : VHeap) (T : Table) (vs : List (List ℕ)), LInv s t h vs → TInv H T vs → vs ≠ [] →
      (∃ h' vs', nextLoop H s t fuel h T (sg * vs.length) vs = .ok (h', sg * vs'.length, vs') ∧ VInv s t h' ∧ Lists s t vs') ∨
      (nextLoop H s t fuel h T (sg * vs.length) vs = .error .hang ∧ H.size < (level s t).ncard) ∨
      (nextLoop H s t fuel h T (sg * vs.length) vs = .error .fuel ∧ fuel ≤ work s t h vs) := by
  intro fuel
  induction fuel with
  | zero => intro h T vs _ _ _; exact Or.inr (Or.inr ⟨rfl, Nat.zero_le _⟩)
  | succ fuel ih =>
    intro h T vs hL hT hne
    unfold nextLoop
    by_cases htop : h.topIs vkey t = true
    · rw [if_pos htop]
      obtain ⟨⟨⟨e0, x0⟩, hx0, hk0⟩, hm0⟩ := (c78_top vkey t h hL.ok).1 htop
      have hnz : h.elems ≠ 0 := by
        intro h0; rw [h0] at hx0; exact Multiset.notMem_zero _ hx0
      obtain ⟨⟨e, x⟩, h1, e1, o1, m1, hmax, -⟩ := c78_pop vkey h hL.ok hnz
      have hmem : (e, x) ∈ h.elems := by rw [m1]; exact Multiset.mem_cons_self _ _
      obtain ⟨g1, g2, g3, g4⟩ := hL.sound _ hmem
      have hxt : x = t := by
        have := hmax _ hx0
        simp only [vkey] at this hk0
        simp only at g4
        omega
      subst hxt
      simp only at g1 g2 g3
      have hlev : e ∈ level s x := ⟨g1, g2.symm⟩
      have hfilt : (h.elems.filter fun p => p.2 = x).card = (h1.elems.filter fun p => p.2 = x).card + 1 := by
        rw [m1, Multiset.filter_cons_of_pos _ (by rfl), Multiset.card_cons]
      rw [e1]
      dsimp only
      rcases probe_spec H T vs hT e with ⟨p1, p2⟩ | ⟨p1, T', p2, p3⟩ | ⟨p1, p2, p3⟩
      · rw [p2]
        dsimp only
        have hL1 : LInv s x h1 vs := by
          refine ⟨o1, fun p hp => hL.sound p (by rw [m1]; exact Multiset.mem_cons_of_mem hp), hL.lev, hL.nodup, fun q f hq hc hor hle => ?_⟩
          rcases hL.complete q f hq hc hor hle with hh | hh
          · exact Or.inl hh
          · rw [m1] at hh
            rcases Multiset.mem_cons.1 hh with hh | hh
            · have : f = e := congrArg Prod.fst hh
              exact Or.inl (this ▸ p1)
            · exact Or.inr hh
        rcases ih h1 T vs hL1 hT hne with r | r | ⟨r1, r2⟩
        · exact Or.inl r
        · exact Or.inr (Or.inl r)
        · refine Or.inr (Or.inr ⟨r1, ?_⟩)
          unfold work at r2 ⊢
          omega
      · rw [p2]
        dsimp only
        obtain ⟨h2, ch, a1, a2, a3, a4, a5, a6⟩ := addSuccessors_spec hs g1 g3 o1
        rw [g2.symm] at a1
        rw [a1]
        dsimp only
        have hL2 : LInv s x h2 (e :: vs) := by
          refine ⟨a2, fun p hp => ?_, fun v hv => ?_, List.nodup_cons.2 ⟨p1, hL.nodup⟩, fun q f hq hc hor hle => ?_⟩
          · rw [a3] at hp
            rcases Multiset.mem_add.1 hp with hp | hp
            · obtain ⟨f, rfl, hc⟩ := a5 p hp
              obtain ⟨b1, b2, b3⟩ := child_spec hs.neg hs.sorted hs.ne hc g1
              exact ⟨b1, rfl, b2, by simp only; omega⟩
            · exact hL.sound p (by rw [m1]; exact Multiset.mem_cons_of_mem hp)
          · rcases List.mem_cons.1 hv with rfl | hv
            · exact hlev
            · exact hL.lev v hv
          · by_cases hqe : q = e
            · subst hqe
              exact Or.inr (by rw [a3]; exact Multiset.mem_add.2 (Or.inl (a6 f hc)))
            · have hor' : x < dotL q s ∨ q ∈ vs := by
                rcases hor with hh | hh
                · exact Or.inl hh
                · exact Or.inr ((List.mem_cons.1 hh).resolve_left hqe)
              rcases hL.complete q f hq hc hor' hle with hh | hh
              · exact Or.inl (List.mem_cons_of_mem _ hh)
              · rw [m1] at hh
                rcases Multiset.mem_cons.1 hh with hh | hh
                · have : f = e := congrArg Prod.fst hh
                  exact Or.inl (this ▸ List.mem_cons_self)
                · exact Or.inr (by rw [a3]; exact Multiset.mem_add.2 (Or.inr hh))
        have hco : (if sg * (vs.length : ℤ) > 0 then sg * (vs.length : ℤ) + 1 else sg * vs.length - 1) = sg * ((e :: vs).length : ℤ) := by
          have hpos : (0 : ℤ) < vs.length := by
            have := List.length_pos_iff.2 hne
            omega
          rw [List.length_cons]
          rcases hsg with rfl | rfl
          · rw [if_pos (by omega)]; push_cast; ring
          · rw [if_neg (by omega)]; push_cast; ring
        rw [hco]
        have hlen := length_le_level hs hL2.nodup hL2.lev
        have hcard : (h2.elems.filter fun p => p.2 = x).card ≤ (h1.elems.filter fun p => p.2 = x).card + 2 := by
          rw [a3, Multiset.filter_add, Multiset.card_add]
          have := Multiset.card_le_card (Multiset.filter_le (fun p : List ℕ × ℤ => p.2 = x) ch)
          omega
        rcases ih h2 T' (e :: vs) hL2 p3 (by simp) with r | r | ⟨r1, r2⟩
        · exact Or.inl r
        · exact Or.inr (Or.inl r)
        · refine Or.inr (Or.inr ⟨r1, ?_⟩)
          unfold work at r2 ⊢
          rw [List.length_cons] at r2 hlen
          omega
      · rw [p2]
        refine Or.inr (Or.inl ⟨rfl, ?_⟩)
        have := length_le_level hs (t := x) (vs := e :: vs) (List.nodup_cons.2 ⟨p1, hL.nodup⟩) (by
          intro v hv
          rcases List.mem_cons.1 hv with rfl | hv
          · exact hlev
          · exact hL.lev v hv)
        rw [List.length_cons] at this
        omega
    · rw [if_neg htop]
      have hno : ∀ p ∈ h.elems, p.2 ≠ t := by
        intro p hp hpt
        apply htop
        refine (c78_top vkey t h hL.ok).2 ⟨⟨p, hp, hpt⟩, fun q hq => ?_⟩
        exact (hL.sound q hq).2.2.2
      have hall : ∀ (k : ℕ) (e : List ℕ), rank e = k → e ∈ level s t → e ∈ vs := by
        intro k
        induction k using Nat.strong_induction_on with
        | _ k ihk =>
          rintro e hk ⟨he1, he2⟩
          have hsum : e.sum ≠ 0 := by
            intro h0
            rw [sum_eq_zero h0, dotL_zero] at he2
            omega
          obtain ⟨q, hc, hq, hr⟩ := exists_parent s e he1 hsum
          have hle := (child_spec hs.neg hs.sorted hs.ne hc hq).2.2
          have hor : t < dotL q s ∨ q ∈ vs := by
            by_cases hqt : t < dotL q s
            · exact Or.inl hqt
            · exact Or.inr (ihk (rank q) (hk ▸ hr) q rfl ⟨hq, by omega⟩)
          rcases hL.complete q e hq hc hor he2.le with hh | hh
          · exact hh
          · exact absurd he2 (hno _ hh)
      refine Or.inl ⟨h, vs, rfl, ⟨hL.ok, fun p hp => ?_, fun q f hq hc hle hlt => ?_⟩, hL.nodup, fun e => ⟨hL.lev e, hall _ e rfl⟩⟩
      · obtain ⟨b1, b2, b3, b4⟩ := hL.sound p hp
        have := hno p hp
        exact ⟨b1, b2, b3, by omega⟩
      · have hor : t < dotL q s ∨ q ∈ vs := by
          rcases lt_or_eq_of_le hle with h1 | h1
          · exact Or.inl h1
          · exact Or.inr (hall _ q rfl ⟨hq, h1.symm⟩)
        rcases hL.complete q f hq hc hor hlt.le with hh | hh
        · have := (hL.lev f hh).2
          omega
        · exact hh

/-! ## The call -/

/-- The state of a `ConeInfo` object between calls: `sg` is the sign of the cone. -/
structure CInv (sg : ℤ) (c : Info n) : Prop where
  sorted : Sorted c.svals
  flag : c.zeroFlag = false
  sign : sg = 1 ∨ sg = -1
  heap : VInv c.svals c.expansion c.heap
  nonpos : c.expansion ≤ 0
  lists : Lists c.svals c.expansion c.vectors
  nonempty : c.vectors ≠ []
  coeff : c.coefficient = sg * c.vectors.length
  cur : c.current = c.numer + c.expansion

/-- The data that never change. -/
def SameCone (c c' : Info n) : Prop :=
  c'.numer = c.numer ∧ c'.point = c.point ∧ c'.rays = c.rays ∧ c'.signs = c.signs ∧ c'.svals = c.svals ∧ c'.order = c.order

/-- `t` is the next level after the current one. -/
def NextLevel (c : Info n) (t : ℤ) : Prop :=
  t < c.expansion ∧ (level c.svals t).Nonempty ∧ ∀ e, e.length = c.svals.length → dotL e c.svals < c.expansion → dotL e c.svals ≤ t

theorem nextTerm_spec (H : Hashing) {sg : ℤ} {c : Info n} (hc : CInv sg c) : ∃ t, NextLevel c t ∧ ∃ N, ∀ fuel,
    (∃ c', nextTerm H fuel c = .ok c' ∧ CInv sg c' ∧ SameCone c c' ∧ c'.expansion = t) ∨
    (nextTerm H fuel c = .error .hang ∧ H.size < (level c.svals t).ncard) ∨
    (nextTerm H fuel c = .error .fuel ∧ fuel < N) := by
  have hs := hc.sorted
  have hnz := heap_nonempty hs hc.nonpos hc.heap
  obtain ⟨⟨e, t⟩, h1, e1, o1, m1, hmax, -⟩ := c78_pop vkey c.heap hc.heap.ok hnz
  have hmem : (e, t) ∈ c.heap.elems := by rw [m1]; exact Multiset.mem_cons_self _ _
  obtain ⟨g1, g2, g3, g4⟩ := hc.heap.sound _ hmem
  simp only at g1 g2 g3 g4
  have ht : t < 0 := lt_of_lt_of_le g4 hc.nonpos
  have hnext : ∀ q, q.length = c.svals.length → dotL q c.svals < c.expansion → dotL q c.svals ≤ t := by
    intro q hq hlt
    obtain ⟨p, hp, hle⟩ := heap_max hs hc.nonpos hc.heap _ q rfl hq hlt
    exact hle.trans (hmax p hp)
  refine ⟨t, ⟨g4, ⟨e, g1, g2.symm⟩, hnext⟩, ?_⟩
  obtain ⟨h2, ch, a1, a2, a3, a4, a5, a6⟩ := addSuccessors_spec hs g1 g3 o1
  rw [← g2] at a1
  have hL : LInv c.svals t h2 [e] := by
    refine ⟨a2, fun p hp => ?_, fun v hv => ?_, List.nodup_singleton _, fun q f hq hcd hor hle => ?_⟩
    · rw [a3] at hp
      rcases Multiset.mem_add.1 hp with hp | hp
      · obtain ⟨f, rfl, hcf⟩ := a5 p hp
        obtain ⟨b1, b2, b3⟩ := child_spec hs.neg hs.sorted hs.ne hcf g1
        exact ⟨b1, rfl, b2, by simp only; omega⟩
      · have hp' : p ∈ c.heap.elems := by rw [m1]; exact Multiset.mem_cons_of_mem hp
        obtain ⟨b1, b2, b3, b4⟩ := hc.heap.sound p hp'
        exact ⟨b1, b2, b3, hmax p hp'⟩
    · rw [List.mem_singleton] at hv
      subst hv
      exact ⟨g1, g2.symm⟩
    · by_cases hqe : q = e
      · subst hqe
        exact Or.inr (by rw [a3]; exact Multiset.mem_add.2 (Or.inl (a6 f hcd)))
      · have hq2 : t < dotL q c.svals := by
          rcases hor with hh | hh
          · exact hh
          · exact absurd (List.mem_singleton.1 hh) hqe
        have hq3 : c.expansion ≤ dotL q c.svals := by
          by_contra hcon
          have := hnext q hq (by omega)
          omega
        have := hc.heap.complete q f hq hcd hq3 (by omega)
        rw [m1] at this
        rcases Multiset.mem_cons.1 this with hh | hh
        · have : f = e := congrArg Prod.fst hh
          exact Or.inl (this ▸ List.mem_singleton_self _)
        · exact Or.inr (by rw [a3]; exact Multiset.mem_add.2 (Or.inr hh))
  refine ⟨work c.svals t h2 [e] + 1, fun fuel => ?_⟩
  have hcoef : (if c.coefficient < 0 then (-1 : ℤ) else 1) = sg * (([e] : List (List ℕ)).length : ℤ) := by
    have hpos : (0 : ℤ) < c.vectors.length := by
      have := List.length_pos_iff.2 hc.nonempty
      omega
    rw [hc.coeff]
    rcases hc.sign with rfl | rfl
    · rw [if_neg (by omega)]; simp
    · rw [if_pos (by omega)]; simp
  unfold nextTerm
  rw [if_neg (by rw [hc.flag]; decide), e1]
  dsimp only
  rw [a1]
  dsimp only
  rw [hcoef]
  rcases nextLoop_spec hs H ht sg hc.sign fuel h2 _ [e] hL (tinv_single H e) (by simp) with ⟨h', vs', r1, r2, r3⟩ | ⟨r1, r2⟩ | ⟨r1, r2⟩
  · rw [r1]
    refine Or.inl ⟨_, rfl, ⟨hs, hc.flag, hc.sign, r2, ht.le, r3, ?_, rfl, rfl⟩, ⟨rfl, rfl, rfl, rfl, rfl, rfl⟩, rfl⟩
    intro h0
    have := (r3.2 e).2 ⟨g1, g2.symm⟩
    simp only at h0
    rw [h0] at this
    cases this
  · rw [r1]
    exact Or.inr (Or.inl ⟨rfl, r2⟩)
  · rw [r1]
    exact Or.inr (Or.inr ⟨rfl, by omega⟩)

end Verif.Digging
