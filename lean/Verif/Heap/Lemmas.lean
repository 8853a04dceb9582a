import Verif.Heap.Model
import Mathlib.Algebra.BigOperators.Group.Finset.Basic
import Mathlib.Algebra.Order.BigOperators.Group.Finset
import Mathlib.Data.Multiset.AddSub

namespace Latte.Heap

variable {α : Type}

/-- what a comparison must satisfy: a strict weak order -/
structure StrictWeak (lt : α → α → Bool) : Prop where
  asymm : ∀ x y, lt x y = true → lt y x = false
  trans : ∀ x y z, lt x y = true → lt y z = true → lt x z = true
  negTrans : ∀ x y z, lt x y = false → lt y z = false → lt x z = false

/-- the stored entries, as a multiset -/
def contents (a : Nat → α) (n : Nat) : Multiset α := (Multiset.range n).map a

theorem swapA_apply (a : Nat → α) (i j k : Nat) :
    swapA a i j k = if k = j then a i else if k = i then a j else a k := by
  unfold swapA
  simp only [Function.update_apply]

theorem contents_eq_sum (a : Nat → α) (n : Nat) :
    contents a n = ∑ i ∈ Finset.range n, ({a i} : Multiset α) := by
  unfold contents
  induction n with
  | zero => simp
  | succ n ih => rw [Finset.sum_range_succ, ← ih, Multiset.range_succ, Multiset.map_cons, add_comm]; rfl

theorem contents_swapA (a : Nat → α) (n i j : Nat) (hi : i < n) (hj : j < n) :
    contents (swapA a i j) n = contents a n := by
  rw [contents_eq_sum, contents_eq_sum]
  refine Finset.sum_nbij' (fun k => if k = j then i else if k = i then j else k)
    (fun k => if k = j then i else if k = i then j else k) ?_ ?_ ?_ ?_ ?_
  · intro k hk; simp only [Finset.mem_range] at *; split_ifs <;> omega
  · intro k hk; simp only [Finset.mem_range] at *; split_ifs <;> omega
  · intro k hk; split_ifs <;> omega
  · intro k hk; split_ifs <;> omega
  · intro k hk
    rw [swapA_apply]
    split_ifs <;> rfl

theorem contents_succ (a : Nat → α) (n : Nat) : contents a (n + 1) = a n ::ₘ contents a n := by
  simp [contents]

theorem contents_congr {a b : Nat → α} {n : Nat} (h : ∀ i < n, a i = b i) : contents a n = contents b n := by
  unfold contents
  apply Multiset.map_congr rfl
  intro x hx; exact h x (by simpa using hx)

theorem mem_contents {a : Nat → α} {n : Nat} {x : α} : x ∈ contents a n ↔ ∃ i < n, a i = x := by
  simp [contents]

/-- moving the last entry to the top removes the top entry from the contents -/
theorem contents_pop (a : Nat → α) (n : Nat) :
    contents a (n + 1) = a 0 ::ₘ contents (Function.update a 0 (a n)) n := by
  cases n with
  | zero => simp [contents]
  | succ m =>
    have h1 : contents a (m + 2) = a (m + 1) ::ₘ contents a (m + 1) := contents_succ a (m + 1)
    have key : ∀ (b : Nat → α) (m : Nat), contents b (m + 1) = b 0 ::ₘ contents (fun i => b (i + 1)) m := by
      intro b m
      induction m with
      | zero => simp [contents]
      | succ k ih => rw [contents_succ, ih, contents_succ, Multiset.cons_swap]
    rw [h1, key a m, key (Function.update a 0 (a (m+1))) m]
    rw [Multiset.cons_swap]
    congr 1

theorem contents_update_zero [DecidableEq α] (a : Nat → α) (n : Nat) (hn : n ≠ 0) (x : α) :
    contents (Function.update a 0 x) n = x ::ₘ (contents a n).erase (a 0) := by
  obtain ⟨m, rfl⟩ := Nat.exists_eq_succ_of_ne_zero hn
  have key : ∀ (b : Nat → α) (m : Nat), contents b (m + 1) = b 0 ::ₘ contents (fun i => b (i + 1)) m := by
    intro b m
    induction m with
    | zero => simp [contents]
    | succ k ih => rw [contents_succ, ih, contents_succ, Multiset.cons_swap]
  rw [Nat.succ_eq_add_one, key, key a m, Multiset.erase_cons_head]
  simp

/-- the heap order below index `p` -/
def HeapFrom (lt : α → α → Bool) (a : Nat → α) (n p : Nat) : Prop :=
  ∀ i c, p ≤ i → (c = 2 * i + 1 ∨ c = 2 * i + 2) → c < n → lt (a c) (a i) = false

theorem percolateDown_spec {lt : α → α → Bool} (hlt : StrictWeak lt) (n p : Nat) :
    ∀ (k pos : Nat) (a : Nat → α), n - pos ≤ k → p ≤ pos → pos < n ∨ n = 0 →
    (∀ i c, p ≤ i → i ≠ pos → (c = 2 * i + 1 ∨ c = 2 * i + 2) → c < n → lt (a c) (a i) = false) →
    (∀ c q, p ≤ q → (pos = 2 * q + 1 ∨ pos = 2 * q + 2) → (c = 2 * pos + 1 ∨ c = 2 * pos + 2) → c < n →
      lt (a c) (a q) = false) →
    HeapFrom lt (percolateDown lt a n pos) n p ∧
    contents (percolateDown lt a n pos) n = contents a n ∧
    (∀ i, i < p → percolateDown lt a n pos i = a i) := by
  intro k
  induction k with
  | zero =>
    intro pos a hk hp hpn H1 H2
    unfold percolateDown
    rw [dif_neg (by omega)]
    refine ⟨?_, rfl, fun _ _ => rfl⟩
    intro i c hi hc hcn
    exact H1 i c hi (by omega) hc hcn
  | succ k ih =>
    intro pos a hk hp hpn H1 H2
    unfold percolateDown
    by_cases hch : 2 * pos + 1 < n
    swap
    · rw [dif_neg hch]
      refine ⟨?_, rfl, fun _ _ => rfl⟩
      intro i c hi hc hcn
      exact H1 i c hi (by omega) hc hcn
    rw [dif_pos hch]
    -- the chosen child
    obtain ⟨c, hcdef, hcc, hcn, hcmin⟩ : ∃ c, (if 2 * pos + 1 < n - 1 ∧ lt (a (2 * pos + 1 + 1)) (a (2 * pos + 1)) = true
        then 2 * pos + 1 + 1 else 2 * pos + 1) = c ∧ (c = 2 * pos + 1 ∨ c = 2 * pos + 2) ∧ c < n ∧
        ∀ d, (d = 2 * pos + 1 ∨ d = 2 * pos + 2) → d < n → lt (a d) (a c) = false := by
      refine ⟨_, rfl, ?_⟩
      have hirr : ∀ x, lt x x = false := fun x => by
        by_contra h
        have h' : lt x x = true := by simpa using h
        have := hlt.asymm x x h'
        simp [h'] at this
      split_ifs with h
      · refine ⟨Or.inr rfl, by omega, ?_⟩
        intro d hd hdn
        rcases hd with rfl | rfl
        · exact hlt.asymm _ _ h.2
        · exact hirr _
      · refine ⟨Or.inl rfl, hch, ?_⟩
        intro d hd hdn
        rcases hd with rfl | rfl
        · exact hirr _
        · by_contra hh
          exact h ⟨by omega, by simpa using hh⟩
    simp only [hcdef]
    by_cases hlt' : lt (a c) (a pos) = true
    · rw [if_pos hlt']
      have hpos : pos < n := by omega
      have := ih c (swapA a pos c) (by omega) (by omega) (Or.inl hcn) ?_ ?_
      · refine ⟨this.1, this.2.1.trans (contents_swapA a n pos c hpos hcn), ?_⟩
        intro i hi
        rw [this.2.2 i hi, swapA_apply, if_neg (by omega), if_neg (by omega)]
      · intro i d hi hic hd hdn
        simp only [swapA_apply]
        by_cases hip : i = pos
        · subst hip
          rw [if_neg hic, if_pos rfl]
          by_cases hdc : d = c
          · subst hdc
            rw [if_pos rfl]; exact hlt.asymm _ _ hlt'
          · rw [if_neg hdc, if_neg (by omega)]
            exact hcmin d hd hdn
        · rw [if_neg hic, if_neg hip]
          have hdc : d ≠ c := by omega
          rw [if_neg hdc]
          by_cases hdp : d = pos
          · subst hdp
            rw [if_pos rfl]
            exact H2 c i hi hd hcc hcn
          · rw [if_neg hdp]
            exact H1 i d hi hip hd hdn
      · intro d q hq hcq hd hdn
        have hqp : q = pos := by omega
        subst hqp
        simp only [swapA_apply]
        rw [if_neg (show d ≠ c by omega), if_neg (show d ≠ q by omega), if_neg (show q ≠ c by omega), if_pos trivial]
        exact H1 c d (by omega) (by omega) hd hdn
    · rw [if_neg hlt']
      refine ⟨?_, rfl, fun _ _ => rfl⟩
      intro i d hi hd hdn
      by_cases hip : i = pos
      · subst hip
        exact hlt.negTrans _ _ _ (hcmin d hd hdn) (by simpa using hlt')
      · exact H1 i d hi hip hd hdn

theorem bubbleUp_spec {lt : α → α → Bool} (hlt : StrictWeak lt) (n : Nat) :
    ∀ (pos : Nat) (a : Nat → α), pos < n →
    (∀ i c, c ≠ pos → (c = 2 * i + 1 ∨ c = 2 * i + 2) → c < n → lt (a c) (a i) = false) →
    (∀ c q, (pos = 2 * q + 1 ∨ pos = 2 * q + 2) → (c = 2 * pos + 1 ∨ c = 2 * pos + 2) → c < n →
      lt (a c) (a q) = false) →
    HeapFrom lt (bubbleUp lt a pos) n 0 ∧ contents (bubbleUp lt a pos) n = contents a n := by
  intro pos
  induction pos using Nat.strong_induction_on with
  | _ pos ih =>
    intro a hpn H1 H2
    unfold bubbleUp
    by_cases h0 : pos > 0
    swap
    · rw [dif_neg h0]
      refine ⟨?_, rfl⟩
      intro i c _ hc hcn
      exact H1 i c (by omega) hc hcn
    rw [dif_pos h0]
    obtain ⟨q, hq⟩ : ∃ q, (pos - 1) / 2 = q := ⟨_, rfl⟩
    have hqp : pos = 2 * q + 1 ∨ pos = 2 * q + 2 := by omega
    simp only [hq]
    by_cases hl : lt (a pos) (a q) = true
    · rw [if_pos hl]
      have := ih q (by omega) (swapA a pos q) (by omega) ?_ ?_
      · exact ⟨this.1, this.2.trans (contents_swapA a n pos q hpn (by omega))⟩
      · intro i c hcq hc hcn
        simp only [swapA_apply]
        rw [if_neg hcq]
        by_cases hcp : c = pos
        · have hiq : i = q := by omega
          subst hcp hiq
          rw [if_pos rfl, if_pos rfl]
          exact hlt.asymm _ _ hl
        · rw [if_neg hcp]
          by_cases hiq : i = q
          · subst hiq
            rw [if_pos rfl]
            by_contra hh
            have h1 := hlt.trans _ _ _ (by simpa using hh) hl
            rw [H1 i c hcp hc hcn] at h1; cases h1
          · rw [if_neg hiq]
            by_cases hip : i = pos
            · subst hip
              rw [if_pos rfl]
              exact H2 c q hqp hc hcn
            · rw [if_neg hip]
              exact H1 i c hcp hc hcn
      · intro c r hr hc hcn
        simp only [swapA_apply]
        rw [if_neg (show c ≠ q by omega), if_neg (show r ≠ q by omega), if_neg (show r ≠ pos by omega)]
        have hqr : lt (a q) (a r) = false := H1 r q (by omega) hr (by omega)
        by_cases hcp : c = pos
        · rw [if_pos hcp]; exact hqr
        · rw [if_neg hcp]
          exact hlt.negTrans _ _ _ (H1 q c hcp hc hcn) hqr
    · rw [if_neg hl]
      refine ⟨?_, rfl⟩
      intro i c _ hc hcn
      by_cases hcp : c = pos
      · have hiq : i = q := by omega
        subst hcp hiq
        simpa using hl
      · exact H1 i c hcp hc hcn

theorem heapifyLoop_spec {lt : α → α → Bool} (hlt : StrictWeak lt) (n : Nat) :
    ∀ (i : Nat) (a : Nat → α), i < n → HeapFrom lt a n (i + 1) →
      HeapFrom lt (heapifyLoop lt n i a) n 0 ∧ contents (heapifyLoop lt n i a) n = contents a n := by
  intro i
  induction i with
  | zero =>
    intro a hi H
    have := percolateDown_spec hlt n 0 n 0 a (by omega) (le_refl 0) (Or.inl hi)
      (fun i c _ hi0 hc hcn => H i c (by omega) hc hcn) (fun c q _ hq _ _ => by omega)
    exact ⟨this.1, this.2.1⟩
  | succ i ih =>
    intro a hi H
    have := percolateDown_spec hlt n (i + 1) n (i + 1) a (by omega) (le_refl _) (Or.inl hi)
      (fun j c hj hji hc hcn => H j c (by omega) hc hcn) (fun c q hq hq' _ _ => by omega)
    have h2 := ih (percolateDown lt a n (i + 1)) (by omega) this.1
    exact ⟨h2.1, h2.2.trans this.2.1⟩

theorem heapify_spec {lt : α → α → Bool} (hlt : StrictWeak lt) (a : Nat → α) (n : Nat) :
    HeapFrom lt (heapify lt a n) n 0 ∧ contents (heapify lt a n) n = contents a n := by
  unfold heapify
  split_ifs with h
  · exact ⟨fun i c _ hc hcn => by omega, rfl⟩
  · apply heapifyLoop_spec hlt n _ a (by omega)
    intro i c hi hc hcn
    omega

theorem heap_min {lt : α → α → Bool} (hlt : StrictWeak lt) {a : Nat → α} {n : Nat} (H : HeapFrom lt a n 0) :
    ∀ i, i < n → lt (a i) (a 0) = false := by
  intro i
  induction i using Nat.strong_induction_on with
  | _ i ih =>
    intro hi
    by_cases h0 : i = 0
    · subst h0
      by_contra h
      have h' : lt (a 0) (a 0) = true := by simpa using h
      have := hlt.asymm _ _ h'
      simp [h'] at this
    · have h1 := H ((i - 1) / 2) i (by omega) (by omega) hi
      exact hlt.negTrans _ _ _ h1 (ih ((i - 1) / 2) (by omega) (by omega))

end Latte.Heap
