import Verif.Heap.Lemmas

/-!
C09: the heap refines an abstract bag from which `pop` takes a least element, for every history of calls.
-/

namespace Latte.Heap

variable {α : Type}

/-- API calls -/
inductive Op (α : Type) where
  | insert (x : α)
  | pop
  | top
  | freeze
  | thaw
  | changeTop (f : α → α)
  | clear
  | numFill

/-- observable answers -/
inductive Out (α : Type) where
  | unit
  | elem (x : α)
  | count (n : Nat)

/-- executing one call by the modelled code -/
def step (lt : α → α → Bool) (s : St α) : Op α → Option (Out α × St α)
  | .insert x => (insert lt s x).map fun s' => (.unit, s')
  | .pop => (pop lt s).map fun p => (.elem p.1, p.2)
  | .top => (top s).map fun x => (.elem x, s)
  | .freeze => (freeze s).map fun s' => (.unit, s')
  | .thaw => (thaw lt s).map fun s' => (.unit, s')
  | .changeTop f => (changeTop lt s f).map fun s' => (.unit, s')
  | .clear => some (.unit, clear s)
  | .numFill => some (.count (numFill s), s)

/-- executing a history -/
def run (lt : α → α → Bool) (s : St α) : List (Op α) → Option (List (Out α) × St α)
  | [] => some ([], s)
  | o :: os => (step lt s o).bind fun p => (run lt p.2 os).map fun q => (p.1 :: q.1, q.2)

/-! ### abstract specification: a bag with capacity -/

/-- abstract state -/
structure Bag (α : Type) where
  elems : Multiset α
  cap : Nat
  frozen : Bool

/-- `x` is a least element of `m` -/
def IsLeast (lt : α → α → Bool) (m : Multiset α) (x : α) : Prop := x ∈ m ∧ ∀ y ∈ m, lt y x = false

/-- legal abstract transitions -/
inductive Step (lt : α → α → Bool) : Bag α → Op α → Out α → Bag α → Prop where
  | insert (b x) (h : b.elems.card < b.cap) : Step lt b (.insert x) .unit { b with elems := x ::ₘ b.elems }
  | pop (b x m) (hf : b.frozen = false) (hm : b.elems = x ::ₘ m) (hx : IsLeast lt b.elems x) :
      Step lt b .pop (.elem x) { b with elems := m }
  | top (b x) (hf : b.frozen = false) (hx : IsLeast lt b.elems x) : Step lt b .top (.elem x) b
  | freeze (b) (hf : b.frozen = false) : Step lt b .freeze .unit { b with frozen := true }
  | thaw (b) (hf : b.frozen = true) : Step lt b .thaw .unit { b with frozen := false }
  /-- the weight of a least element (of some element while frozen) is replaced -/
  | changeTop (b f x m) (hm : b.elems = x ::ₘ m) (hx : b.frozen = true ∨ IsLeast lt b.elems x) :
      Step lt b (.changeTop f) .unit { b with elems := f x ::ₘ m }
  | clear (b) : Step lt b .clear .unit { b with elems := 0 }
  | numFill (b) : Step lt b .numFill (.count b.elems.card) b

/-- when a call is allowed -/
def Enabled (b : Bag α) : Op α → Prop
  | .insert _ => b.elems.card < b.cap
  | .pop => b.elems ≠ 0 ∧ b.frozen = false
  | .top => b.elems ≠ 0 ∧ b.frozen = false
  | .freeze => b.frozen = false
  | .thaw => b.frozen = true
  | .changeTop _ => b.elems ≠ 0
  | .clear => True
  | .numFill => True

/-- abstract histories -/
inductive Steps (lt : α → α → Bool) : Bag α → List (Op α) → List (Out α) → Bag α → Prop where
  | nil (b) : Steps lt b [] [] b
  | cons {b o r b' os rs b''} (h : Step lt b o r b') (t : Steps lt b' os rs b'') :
      Steps lt b (o :: os) (r :: rs) b''

/-- abstraction of a concrete state -/
def abs (s : St α) : Bag α := ⟨contents s.a s.next, s.size, s.frozen⟩

/-- the invariant: ordered unless frozen -/
def Inv (lt : α → α → Bool) (s : St α) : Prop := s.frozen = false → HeapFrom lt s.a s.next 0

theorem card_contents (a : Nat → α) (n : Nat) : (contents a n).card = n := by simp [contents]

theorem contents_ne_zero (a : Nat → α) (n : Nat) : contents a n ≠ 0 ↔ n ≠ 0 := by
  rw [ne_eq, ← Multiset.card_eq_zero, card_contents]

theorem isLeast_zero {lt : α → α → Bool} (hlt : StrictWeak lt) {a : Nat → α} {n : Nat} (hn : 0 < n)
    (H : HeapFrom lt a n 0) : IsLeast lt (contents a n) (a 0) := by
  refine ⟨mem_contents.2 ⟨0, hn, rfl⟩, ?_⟩
  intro y hy
  obtain ⟨i, hi, rfl⟩ := mem_contents.1 hy
  exact heap_min hlt H i hi

theorem step_refines {lt : α → α → Bool} (hlt : StrictWeak lt) (s : St α) (hs : Inv lt s) (o : Op α) :
    (∀ r s', step lt s o = some (r, s') → Inv lt s' ∧ Step lt (abs s) o r (abs s')) ∧
    (Enabled (abs s) o ↔ (step lt s o).isSome) := by
  cases o with
  | insert x =>
    constructor
    · intro r s' h
      simp only [step, insert] at h
      by_cases hn : s.next < s.size
      swap
      · rw [if_neg hn] at h; simp at h
      rw [if_pos hn] at h
      simp only [Option.map_some, Option.some.injEq, Prod.mk.injEq] at h
      obtain ⟨rfl, rfl⟩ := h
      have hc : contents (Function.update s.a s.next x) (s.next + 1) = x ::ₘ contents s.a s.next := by
        rw [contents_succ]
        congr 1
        · simp
        · exact contents_congr (fun i hi => by rw [Function.update_of_ne (by omega)])
      by_cases hf : s.frozen = true
      · refine ⟨fun h => by simp [hf] at h, ?_⟩
        have := Step.insert (lt := lt) (abs s) x (by simpa [abs, card_contents] using hn)
        simp only [abs, hf, if_true, hc] at this ⊢
        exact this
      · have hf' : s.frozen = false := by simpa using hf
        have H := hs hf'
        have hb := bubbleUp_spec hlt (s.next + 1) s.next (Function.update s.a s.next x) (by omega)
          (by
            intro i c hcn hc hcl
            rw [Function.update_of_ne (by omega), Function.update_of_ne (by omega)]
            exact H i c (by omega) hc (by omega))
          (by intro c q hq hc hcl; omega)
        refine ⟨fun _ => by simpa [hf'] using hb.1, ?_⟩
        have := Step.insert (lt := lt) (abs s) x (by simpa [abs, card_contents] using hn)
        simp only [abs, hf', Bool.false_eq_true, if_false] at this ⊢
        rw [hb.2, hc]
        exact this
    · simp only [Enabled, abs, card_contents, step, insert]
      split_ifs with h <;> simp [h]
  | pop =>
    constructor
    · intro r s' h
      simp only [step, pop] at h
      by_cases hn : s.next > 0 ∧ s.frozen = false
      swap
      · rw [if_neg hn] at h; simp at h
      rw [if_pos hn] at h
      simp only [Option.map_some, Option.some.injEq, Prod.mk.injEq] at h
      obtain ⟨rfl, rfl⟩ := h
      obtain ⟨hn0, hf⟩ := hn
      have H := hs hf
      obtain ⟨m, hm⟩ : ∃ m, s.next = m + 1 := ⟨s.next - 1, by omega⟩
      have hsub : s.next - 1 = m := by omega
      have hp := percolateDown_spec hlt m 0 m 0 (Function.update s.a 0 (s.a m)) (by omega) (le_refl 0) (by omega)
        (by
          intro i c _ hi hc hcn
          rw [Function.update_of_ne (by omega), Function.update_of_ne (by omega)]
          exact H i c (by omega) hc (by omega))
        (by intro c q _ hq _ _; omega)
      have hpop := contents_pop s.a m
      simp only [hsub]
      refine ⟨fun _ => hp.1, ?_⟩
      refine Step.pop (abs s) (s.a 0) _ hf ?_ ?_
      · simp only [abs, hm, hp.2.1]; exact hpop
      · exact isLeast_zero hlt hn0 H
    · simp only [Enabled, abs, contents_ne_zero, step, pop]
      split_ifs with h
      · simp only [Option.map_some, Option.isSome_some, iff_true]; exact ⟨by omega, h.2⟩
      · simp only [Option.map_none, Option.isSome_none, Bool.false_eq_true, iff_false]
        intro h'; exact h ⟨by omega, h'.2⟩
  | top =>
    constructor
    · intro r s' h
      simp only [step, top] at h
      by_cases hn : s.next > 0 ∧ s.frozen = false
      swap
      · rw [if_neg hn] at h; simp at h
      rw [if_pos hn] at h
      simp only [Option.map_some, Option.some.injEq, Prod.mk.injEq] at h
      obtain ⟨rfl, rfl⟩ := h
      exact ⟨hs, Step.top _ _ hn.2 (isLeast_zero hlt hn.1 (hs hn.2))⟩
    · simp only [Enabled, abs, contents_ne_zero, step, top]
      split_ifs with h
      · simp only [Option.map_some, Option.isSome_some, iff_true]; exact ⟨by omega, h.2⟩
      · simp only [Option.map_none, Option.isSome_none, Bool.false_eq_true, iff_false]
        intro h'; exact h ⟨by omega, h'.2⟩
  | freeze =>
    constructor
    · intro r s' h
      simp only [step, freeze] at h
      by_cases hn : s.frozen = true
      · rw [if_pos hn] at h; simp at h
      rw [if_neg hn] at h
      simp only [Option.map_some, Option.some.injEq, Prod.mk.injEq] at h
      obtain ⟨rfl, rfl⟩ := h
      exact ⟨fun h => by simp at h, Step.freeze (abs s) (by simpa [abs] using hn)⟩
    · simp only [Enabled, abs, step, freeze]
      split_ifs with h <;> simp [h]
  | thaw =>
    constructor
    · intro r s' h
      simp only [step, thaw] at h
      by_cases hn : s.frozen = true
      swap
      · rw [if_neg hn] at h; simp at h
      rw [if_pos hn] at h
      simp only [Option.map_some, Option.some.injEq, Prod.mk.injEq] at h
      obtain ⟨rfl, rfl⟩ := h
      have hh := heapify_spec hlt s.a s.next
      refine ⟨fun _ => hh.1, ?_⟩
      have := Step.thaw (lt := lt) (abs s) hn
      simp only [abs, hh.2] at this ⊢
      exact this
    · simp only [Enabled, abs, step, thaw]
      split_ifs with h <;> simp [h]
  | changeTop f =>
    constructor
    · intro r s' h
      simp only [step, changeTop] at h
      by_cases hn : s.next ≠ 0
      swap
      · rw [if_neg hn] at h; simp at h
      rw [if_pos hn] at h
      by_cases hf : s.frozen = true
      · rw [if_pos hf] at h
        simp only [Option.map_some, Option.some.injEq, Prod.mk.injEq] at h
        obtain ⟨rfl, rfl⟩ := h
        refine ⟨fun h => by simp [hf] at h, ?_⟩
        obtain ⟨m, hm⟩ : ∃ m, s.next = m + 1 := ⟨s.next - 1, by omega⟩
        have key : ∀ (b : Nat → α) (m : Nat), contents b (m + 1) = b 0 ::ₘ contents (fun i => b (i + 1)) m := by
          intro b m
          induction m with
          | zero => simp [contents]
          | succ k ih => rw [contents_succ, ih, contents_succ, Multiset.cons_swap]
        have := Step.changeTop (lt := lt) (abs s) f (s.a 0) (contents (fun i => s.a (i + 1)) m)
          (by simp only [abs, hm]; exact key s.a m) (Or.inl hf)
        simp only [abs, hm, key (Function.update s.a 0 (f (s.a 0))) m] at this ⊢
        simpa using this
      · rw [if_neg hf] at h
        simp only [Option.map_some, Option.some.injEq, Prod.mk.injEq] at h
        obtain ⟨rfl, rfl⟩ := h
        have hf' : s.frozen = false := by simpa using hf
        have H := hs hf'
        have hp := percolateDown_spec hlt s.next 0 s.next 0 (Function.update s.a 0 (f (s.a 0))) (by omega)
          (le_refl 0) (by omega)
          (by
            intro i c _ hi hc hcn
            rw [Function.update_of_ne (by omega), Function.update_of_ne (by omega)]
            exact H i c (by omega) hc (by omega))
          (by intro c q _ hq _ _; omega)
        refine ⟨fun _ => hp.1, ?_⟩
        obtain ⟨m, hm⟩ : ∃ m, s.next = m + 1 := ⟨s.next - 1, by omega⟩
        have key : ∀ (b : Nat → α) (m : Nat), contents b (m + 1) = b 0 ::ₘ contents (fun i => b (i + 1)) m := by
          intro b m
          induction m with
          | zero => simp [contents]
          | succ k ih => rw [contents_succ, ih, contents_succ, Multiset.cons_swap]
        have := Step.changeTop (lt := lt) (abs s) f (s.a 0) (contents (fun i => s.a (i + 1)) m)
          (by simp only [abs, hm]; exact key s.a m) (Or.inr (isLeast_zero hlt (by omega) H))
        have hk := key (Function.update s.a 0 (f (s.a 0))) m
        rw [← hm] at hk
        simp only [abs, hp.2.1, hk] at this ⊢
        simpa using this
    · simp only [Enabled, abs, contents_ne_zero, step, changeTop]
      split_ifs with h <;> simp [h]
  | clear =>
    constructor
    · intro r s' h
      simp only [step, clear, Option.some.injEq, Prod.mk.injEq] at h
      obtain ⟨rfl, rfl⟩ := h
      refine ⟨fun _ i c _ _ hcn => by simp at hcn, ?_⟩
      have := Step.clear (lt := lt) (abs s)
      simpa [abs, contents] using this
    · simp [Enabled, step]
  | numFill =>
    constructor
    · intro r s' h
      simp only [step, numFill, Option.some.injEq, Prod.mk.injEq] at h
      obtain ⟨rfl, rfl⟩ := h
      refine ⟨hs, ?_⟩
      have := Step.numFill (lt := lt) (abs s)
      simpa [abs, card_contents] using this
    · simp [Enabled, step]

/-- **C09** For every strict weak order, every capacity, every initial memory content and every history of calls
that the code executes without assertion failure, the answers are those of a bag in which `pop`/`top` return a
least element and every call changes the bag by exactly its own effect. -/
theorem c09_heap_refines_bag {lt : α → α → Bool} (hlt : StrictWeak lt) (g : Nat → α) (size : Nat)
    (ops : List (Op α)) (outs : List (Out α)) (s : St α)
    (h : run lt (alloc g size) ops = some (outs, s)) :
    Steps lt ⟨0, size, false⟩ ops outs (abs s) := by
  have gen : ∀ (ops : List (Op α)) (s0 : St α) (outs : List (Out α)) (s : St α), Inv lt s0 →
      run lt s0 ops = some (outs, s) → Steps lt (abs s0) ops outs (abs s) := by
    intro ops
    induction ops with
    | nil =>
      intro s0 outs s _ h
      simp only [run, Option.some.injEq, Prod.mk.injEq] at h
      obtain ⟨rfl, rfl⟩ := h
      exact Steps.nil _
    | cons o os ih =>
      intro s0 outs s hI h
      simp only [run, Option.bind_eq_some_iff, Option.map_eq_some_iff] at h
      obtain ⟨⟨r, s1⟩, h1, ⟨rs, s2⟩, h2, h3⟩ := h
      simp only [Prod.mk.injEq] at h3
      obtain ⟨rfl, rfl⟩ := h3
      have := (step_refines hlt s0 hI o).1 r s1 h1
      exact Steps.cons this.2 (ih s1 rs s2 this.1 h2)
  have := gen ops (alloc g size) outs s (fun _ i c _ _ hcn => by simp [alloc] at hcn) h
  simpa [abs, alloc, contents] using this

/-- **C09** A call stops with an assertion failure exactly when it is not allowed on the bag (popping from an empty
or frozen heap, inserting beyond the capacity, freezing twice, …), after any history. -/
theorem c09_heap_no_spurious_failure {lt : α → α → Bool} (hlt : StrictWeak lt) (g : Nat → α) (size : Nat)
    (ops : List (Op α)) (outs : List (Out α)) (s : St α)
    (h : run lt (alloc g size) ops = some (outs, s)) (o : Op α) :
    (step lt s o).isSome ↔ Enabled (abs s) o := by
  have gen : ∀ (ops : List (Op α)) (s0 : St α) (outs : List (Out α)) (s : St α), Inv lt s0 →
      run lt s0 ops = some (outs, s) → Inv lt s := by
    intro ops
    induction ops with
    | nil =>
      intro s0 outs s hI h
      simp only [run, Option.some.injEq, Prod.mk.injEq] at h
      obtain ⟨rfl, rfl⟩ := h
      exact hI
    | cons o os ih =>
      intro s0 outs s hI h
      simp only [run, Option.bind_eq_some_iff, Option.map_eq_some_iff] at h
      obtain ⟨⟨r, s1⟩, h1, ⟨rs, s2⟩, h2, h3⟩ := h
      simp only [Prod.mk.injEq] at h3
      obtain ⟨rfl, rfl⟩ := h3
      exact ih s1 rs s2 ((step_refines hlt s0 hI o).1 r s1 h1).1 h2
  exact ((step_refines hlt s (gen ops _ _ _ (fun _ i c _ _ hcn => by simp [alloc] at hcn) h) o).2).symm

/-- the comparison of `HEAP_INT_MIN` on (weight, data) entries -/
def ltIntMin (x y : Int × Nat) : Bool := x.1 < y.1
/-- the comparison of `HEAP_INT_MAX` on (weight, data) entries -/
def ltIntMax (x y : Int × Nat) : Bool := x.1 > y.1

/-- non-vacuity: the integer comparisons are strict weak orders. -/
theorem strictWeak_ltIntMin : StrictWeak ltIntMin := by
  constructor <;> simp only [ltIntMin, decide_eq_true_eq, decide_eq_false_iff_not] <;> intros <;> omega
theorem strictWeak_ltIntMax : StrictWeak ltIntMax := by
  constructor <;> simp only [ltIntMax, decide_eq_true_eq, decide_eq_false_iff_not] <;> intros <;> omega

/-- non-vacuity: a concrete history with freeze/thaw and change of the top weight runs through -/
example : (run ltIntMin (alloc (fun _ => (0, 0)) 4)
    [.insert (5, 1), .insert (3, 2), .freeze, .insert (4, 3), .insert (1, 4), .thaw, .pop,
     .changeTop (fun e => (9, e.2)), .pop]).map (fun p => p.1.filterMap
      (fun | .elem x => some x | _ => none)) = some [(1, 4), (4, 3)] := by decide +kernel

end Latte.Heap
