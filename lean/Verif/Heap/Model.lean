import Mathlib.Logic.Function.Basic

/-!
Model of the binary heap in code/latte/heap.cpp.  The five copies of the percolation routines (int/double/custom,
min/max) differ only in the comparison; the model is parameterised by `lt x y`, "the weight of x must come before
the weight of y": `<` on weights for the `_MIN` types, `>` for the `_MAX` types, `custom_compare(x,y) < 0` for
`HEAP_CUSTOM`.  The array is a function on indices, entries at or beyond `next` are garbage as in C.
A failed assertion is `none`.
-/

namespace Latte.Heap

variable {α : Type}

/-- heap.h `struct heap`: array, `next_pos`, `size`, `frozen`. -/
structure St (α : Type) where
  a : Nat → α
  next : Nat
  size : Nat
  frozen : Bool

/-- the three assignments through the temporary `xxx`, e.g. heap.cpp:46-48. -/
def swapA (a : Nat → α) (i j : Nat) : Nat → α :=
  Function.update (Function.update a i (a j)) j (a i)

/-- heap.cpp:31-54 `percolate_down_int_min` (and the copies 55-150). -/
def percolateDown (lt : α → α → Bool) (a : Nat → α) (n pos : Nat) : Nat → α :=
  let child := 2 * pos + 1
  if h : child < n then
    let c := if child < n - 1 ∧ lt (a (child + 1)) (a child) then child + 1 else child
    if lt (a c) (a pos) then percolateDown lt (swapA a pos c) n c else a
  else a
termination_by n - pos
decreasing_by split <;> omega

/-- heap.cpp:153-168 `bubble_up_int_min` (and the copies 169-236). -/
def bubbleUp (lt : α → α → Bool) (a : Nat → α) (pos : Nat) : Nat → α :=
  if h : pos > 0 then
    let parent := (pos - 1) / 2
    if lt (a pos) (a parent) then bubbleUp lt (swapA a pos parent) parent else a
  else a
termination_by pos
decreasing_by omega

/-- heap.cpp:253-255 the `do … while (next_insert-- > 0)` loop. -/
def heapifyLoop (lt : α → α → Bool) (n : Nat) : Nat → (Nat → α) → (Nat → α)
  | 0, a => percolateDown lt a n 0
  | i + 1, a => heapifyLoop lt n i (percolateDown lt a n (i + 1))

/-- heap.cpp:239-286 `heapify`. -/
def heapify (lt : α → α → Bool) (a : Nat → α) (n : Nat) : Nat → α :=
  if n ≤ 1 then a else heapifyLoop lt n ((n - 1 - 1) / 2) a

/-- heap.cpp:291-330 `heap_alloc` (initial memory content `g` arbitrary). -/
def alloc (g : Nat → α) (size : Nat) : St α := ⟨g, 0, size, false⟩

/-- heap.cpp:333-341 `heap_freeze`. -/
def freeze (s : St α) : Option (St α) := if s.frozen then none else some { s with frozen := true }

/-- heap.cpp:344-355 `heap_thaw`. -/
def thaw (lt : α → α → Bool) (s : St α) : Option (St α) :=
  if s.frozen then some { s with a := heapify lt s.a s.next, frozen := false } else none

/-- heap.cpp:358-384 `heap_top`. -/
def top (s : St α) : Option α := if s.next > 0 ∧ s.frozen = false then some (s.a 0) else none

/-- heap.cpp:387-440 `heap_pop`. -/
def pop (lt : α → α → Bool) (s : St α) : Option (α × St α) :=
  if s.next > 0 ∧ s.frozen = false then
    let data := s.a 0
    let n := s.next - 1
    let a := Function.update s.a 0 (s.a n)
    some (data, { s with a := percolateDown lt a n 0, next := n })
  else none

/-- heap.cpp:443-493 `heap_insert_intweight`, `heap_insert_dblweight`, `heap_insert_custweight`. -/
def insert (lt : α → α → Bool) (s : St α) (x : α) : Option (St α) :=
  if s.next < s.size then
    let a := Function.update s.a s.next x
    let a := if s.frozen then a else bubbleUp lt a s.next
    some { s with a := a, next := s.next + 1 }
  else none

/-- heap.cpp:497-511 `heap_change_top_intweight`; `f` replaces the weight of the entry and keeps its data. -/
def changeTop (lt : α → α → Bool) (s : St α) (f : α → α) : Option (St α) :=
  if s.next ≠ 0 then
    let a := Function.update s.a 0 (f (s.a 0))
    some { s with a := if s.frozen then a else percolateDown lt a s.next 0 }
  else none

/-- heap.cpp:514-519 `heap_clear`. -/
def clear (s : St α) : St α := { s with next := 0 }

/-- heap.cpp:528-547 `heap_num_fill` (and emptiness tests). -/
def numFill (s : St α) : Nat := s.next

end Latte.Heap
