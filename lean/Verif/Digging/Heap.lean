import Mathlib.Data.Multiset.Basic
import Mathlib.Data.Multiset.AddSub
import Mathlib.Tactic.Linarith
import Mathlib.Data.List.Induction

/-!
# The two pointer heaps of `code/latte/ConeInfo.cpp`

`Vector_Heap` (lines 36–468) and `ConeInfo_Heap` (lines 1023–1335) are the same data structure with different contents: a binary tree of nodes, the node
number `k` being found by following the binary digits of `k` below the leading one (0 left, 1 right), with the larger key on top.  The model is one
polymorphic structure; `key` is `Total_Sum` or `Get_Current_Highest_Term ()`.  `unsigned` node counts are natural numbers (a heap with 2^32 nodes does not
fit into memory).
-/

namespace Verif.Digging

/-- The nodes reachable from a pointer; `nil` is `NULL`.  The `Parent` pointers are implicit. -/
inductive Tree (α : Type) where
  | nil
  | node (v : α) (l r : Tree α)

/-- The digits of `k` below the leading one, most significant first; `true` is 1 (ConeInfo.cpp 84–106, 218–242, 1074–1097, 1169–1193: the loops over
`Temp_Node_Mask`). -/
def pathAux : (fuel : ℕ) → ℕ → List Bool
  | 0, _ => []
  | f + 1, k => if k ≤ 1 then [] else pathAux f (k / 2) ++ [k % 2 == 1]

/-- The way from the root to node number `k`. -/
def path (k : ℕ) : List Bool := pathAux k k

variable {α : Type}

/-- The contents of the node a pointer points to. -/
def Tree.root? : Tree α → Option α
  | .nil => none
  | .node v _ _ => some v

/-- Overwriting the contents of a node. -/
def Tree.setRoot (x : α) : Tree α → Tree α
  | .nil => .nil
  | .node _ l r => .node x l r

/-- Is the contents of the child strictly larger?  (`false` for a missing child) -/
def larger (key : α → ℤ) (t : Tree α) (v : α) : Bool :=
  match t.root? with
  | none => false
  | some w => decide (key v < key w)

/-- `Add_Heap` below a node (ConeInfo.cpp 79–142, 1067–1126) followed by `Restore_Up` (437–463, 1302–1324): go down the path, hang a new node there (whatever
was there is lost), and on the way back exchange it with its parent as long as it is larger.  The Boolean tells whether the new element
has come up to the root of this subtree.  `none`: a `NULL` pointer is followed. -/
def Tree.add (key : α → ℤ) (x : α) : List Bool → Tree α → Option (Tree α × Bool)
  | [], _ => some (.node x .nil .nil, true)
  | _ :: _, .nil => none
  | false :: bs, .node v l r =>
    match Tree.add key x bs l with
    | none => none
    | some (l', up) => if up && larger key l' v then some (.node x (l'.setRoot v) r, true) else some (.node v l' r, false)
  | true :: bs, .node v l r =>
    match Tree.add key x bs r with
    | none => none
    | some (r', up) => if up && larger key r' v then some (.node x l (r'.setRoot v), true) else some (.node v l r', false)

/-- Reading and removing the node at the end of a path (ConeInfo.cpp 225–274, 1176–1216). -/
def Tree.takeAt : List Bool → Tree α → Option (α × Tree α)
  | _, .nil => none
  | [], .node v _ _ => some (v, .nil)
  | false :: bs, .node v l r =>
    match Tree.takeAt bs l with
    | none => none
    | some (w, l') => some (w, .node v l' r)
  | true :: bs, .node v l r =>
    match Tree.takeAt bs r with
    | none => none
    | some (w, r') => some (w, .node v l r')

/-- `Restore_Down` (ConeInfo.cpp 325–385, 1249–1299) at a node whose contents has just been replaced by `x`. -/
def Tree.sink (key : α → ℤ) (x : α) : Tree α → Tree α
  | .nil => .nil
  | .node _ l r =>
    match l.root?, r.root? with
    | none, none => .node x l r
    | some a, none => if key a ≤ key x then .node x l r else .node a (Tree.sink key x l) r
    | none, some b => if key b ≤ key x then .node x l r else .node b l (Tree.sink key x r)
    | some a, some b =>
      let swapLeft := ¬ key a ≤ key x
      let swapRight := ¬ key b ≤ key x
      if swapLeft ∧ (swapRight → key b < key a) then .node a (Tree.sink key x l) r
      else if swapRight then .node b l (Tree.sink key x r)
      else .node x l r

/-- `Root_Node` and `Node_Count`. -/
structure Heap (α : Type) where
  count : ℕ
  tree : Tree α

/-- The constructors (ConeInfo.cpp 36–48, 1023–1027). -/
def Heap.empty : Heap α := ⟨0, .nil⟩

/-- `Add_Heap` (ConeInfo.cpp 79–170, 1067–1137). -/
def Heap.add (key : α → ℤ) (x : α) (h : Heap α) : Option (Heap α) :=
  if h.count ≠ 0 then
    match h.tree.add key x (path (h.count + 1)) with
    | none => none
    | some (t, _) => some ⟨h.count + 1, t⟩
  else some ⟨h.count + 1, .node x .nil .nil⟩

/-- `Pop_Top_Heap` (ConeInfo.cpp 189–322, 1155–1246); `none`: the heap is empty, or a `NULL` pointer is followed. -/
def Heap.pop (key : α → ℤ) (h : Heap α) : Option (α × Heap α) :=
  match h.tree.root? with
  | none => none
  | some v =>
    if h.count ≠ 1 then
      match h.tree.takeAt (path h.count) with
      | none => none
      | some (w, t) => some (v, ⟨h.count - 1, t.sink key w⟩)
    else some (v, ⟨0, .nil⟩)

/-- `Check_Top_Heap` (ConeInfo.cpp 387–399, 1326–1341). -/
def Heap.topIs (key : α → ℤ) (k : ℤ) (h : Heap α) : Bool :=
  match h.tree.root? with
  | none => false
  | some v => key v == k

/-! ## Specification -/

/-- The multiset of elements in a tree. -/
def Tree.elems : Tree α → Multiset α
  | .nil => 0
  | .node v l r => v ::ₘ (l.elems + r.elems)

/-- The multiset of elements in the heap. -/
def Heap.elems (h : Heap α) : Multiset α := h.tree.elems

/-- **Specification.** The largest element is on top of every subtree. -/
def Tree.Ordered (key : α → ℤ) : Tree α → Prop
  | .nil => True
  | .node v l r => (∀ x ∈ l.elems, key x ≤ key v) ∧ (∀ x ∈ r.elems, key x ≤ key v) ∧ l.Ordered key ∧ r.Ordered key

/-- There is a node at the end of the path. -/
def Tree.Has : List Bool → Tree α → Prop
  | _, .nil => False
  | [], .node _ _ _ => True
  | false :: bs, .node _ l _ => l.Has bs
  | true :: bs, .node _ _ r => r.Has bs

/-- The number of the node at the end of a path. -/
def num (p : List Bool) : ℕ := p.foldl (fun k b => 2 * k + b.toNat) 1

/-- The invariant: ordered, and the nodes are those with the numbers `1, …, count`. -/
structure Heap.Ok (key : α → ℤ) (h : Heap α) : Prop where
  ordered : h.tree.Ordered key
  shape : ∀ p, h.tree.Has p ↔ num p ≤ h.count

/-! ## Paths -/

theorem num_append (p : List Bool) (b : Bool) : num (p ++ [b]) = 2 * num p + b.toNat := by
  unfold num
  rw [List.foldl_append]
  rfl

theorem num_pos (p : List Bool) : 1 ≤ num p := by
  induction p using List.reverseRecOn with
  | nil => exact le_refl _
  | append_singleton p b ih => rw [num_append]; omega

theorem num_pathAux : ∀ (f k : ℕ), 1 ≤ k → k ≤ f → num (pathAux f k) = k := by
  intro f
  induction f with
  | zero => intro k h1 h2; omega
  | succ f ih =>
    intro k h1 h2
    unfold pathAux
    split
    · have : k = 1 := by omega
      subst this
      rfl
    · rw [num_append, ih (k / 2) (by omega) (by omega)]
      rcases Nat.mod_two_eq_zero_or_one k with h | h
      · rw [h]; show 2 * (k / 2) + 0 = k; omega
      · rw [h]; show 2 * (k / 2) + 1 = k; omega

theorem num_path (k : ℕ) (h : 1 ≤ k) : num (path k) = k := num_pathAux k k h le_rfl

theorem num_injective : Function.Injective num := by
  intro p
  induction p using List.reverseRecOn with
  | nil =>
    intro q h
    induction q using List.reverseRecOn with
    | nil => rfl
    | append_singleton q b _ =>
      rw [num_append] at h
      have := num_pos q
      have h1 : num [] = 1 := rfl
      omega
  | append_singleton p b ih =>
    intro q h
    induction q using List.reverseRecOn with
    | nil =>
      rw [num_append] at h
      have := num_pos p
      have h1 : num [] = 1 := rfl
      omega
    | append_singleton q c _ =>
      rw [num_append, num_append] at h
      have hb : b = c := by
        cases b <;> cases c <;> simp at h ⊢ <;> omega
      subst hb
      rw [ih (by omega : num p = num q)]

/-! ## Order -/

theorem Ordered.root_max {key : α → ℤ} {t : Tree α} (h : t.Ordered key) {v : α} (hv : t.root? = some v) : ∀ x ∈ t.elems, key x ≤ key v := by
  cases t with
  | nil => cases hv
  | node w l r =>
    cases hv
    intro x hx
    rcases Multiset.mem_cons.1 hx with rfl | hx
    · exact le_rfl
    · rcases Multiset.mem_add.1 hx with hx | hx
      · exact h.1 x hx
      · exact h.2.1 x hx

theorem setRoot_elems {t : Tree α} {x : α} (v : α) (h : t.root? = some x) : x ::ₘ (t.setRoot v).elems = v ::ₘ t.elems := by
  cases t with
  | nil => cases h
  | node w l r =>
    cases h
    exact Multiset.cons_swap _ _ _

theorem setRoot_ordered {key : α → ℤ} {t : Tree α} (v : α) {E : Multiset α} {x : α} (hr : t.root? = some x) (he : t.elems = x ::ₘ E) (ho : t.Ordered key)
    (hv : ∀ y ∈ E, key y ≤ key v) : (t.setRoot v).Ordered key ∧ ∀ y ∈ (t.setRoot v).elems, key y ≤ max (key v) (key v) := by
  cases t with
  | nil => cases hr
  | node w l r =>
    cases hr
    have he' : l.elems + r.elems = E := (Multiset.cons_inj_right _).1 he
    have h1 : ∀ y ∈ l.elems, key y ≤ key v := fun y hy => hv y (he' ▸ Multiset.mem_add.2 (Or.inl hy))
    have h2 : ∀ y ∈ r.elems, key y ≤ key v := fun y hy => hv y (he' ▸ Multiset.mem_add.2 (Or.inr hy))
    refine ⟨⟨h1, h2, ho.2.2.1, ho.2.2.2⟩, fun y hy => ?_⟩
    rw [max_self]
    rcases Multiset.mem_cons.1 hy with rfl | hy
    · exact le_rfl
    · rcases Multiset.mem_add.1 hy with hy | hy
      · exact h1 y hy
      · exact h2 y hy

theorem larger_iff {key : α → ℤ} {t : Tree α} {v x : α} (h : t.root? = some x) : larger key t v = true ↔ key v < key x := by
  unfold larger
  rw [h]
  simp

/-- What `add` does to order and contents, if it hangs the new node where there was none. -/
theorem add_ordered (key : α → ℤ) (x : α) : ∀ (bs : List Bool) (t t' : Tree α) (up : Bool), ¬ t.Has bs → t.Ordered key → t.add key x bs = some (t', up) →
    t'.Ordered key ∧ t'.elems = x ::ₘ t.elems ∧ (up = true → t'.root? = some x) ∧ (up = false → t'.root? = t.root? ∧ ∀ v ∈ t.root?, key x ≤ key v) := by
  intro bs
  induction bs with
  | nil =>
    intro t t' up hb ho h
    cases t with
    | nil =>
      simp only [Tree.add, Option.some.injEq, Prod.mk.injEq] at h
      obtain ⟨rfl, rfl⟩ := h
      refine ⟨⟨by simp [Tree.elems], by simp [Tree.elems], trivial, trivial⟩, rfl, fun _ => rfl, fun h => by cases h⟩
    | node v l r => exact absurd trivial hb
  | cons b bs ih =>
    intro t t' up hb ho h
    cases t with
    | nil => simp [Tree.add] at h
    | node v l r =>
      cases b with
      | false =>
        unfold Tree.add at h
        cases hl : Tree.add key x bs l with
        | none => rw [hl] at h; cases h
        | some q =>
          obtain ⟨l', up'⟩ := q
          rw [hl] at h
          obtain ⟨h1, h2, h3, h4⟩ := ih l l' up' hb ho.2.2.1 hl
          dsimp only at h
          by_cases hc : (up' && larger key l' v) = true
          · rw [if_pos hc] at h
            rw [Bool.and_eq_true] at hc
            cases h
            have hroot := h3 hc.1
            have hlt := (larger_iff hroot).1 hc.2
            obtain ⟨a1, a2⟩ := setRoot_ordered v hroot h2 h1 ho.1
            rw [max_self] at a2
            refine ⟨⟨fun y hy => (a2 y hy).trans hlt.le, fun y hy => (ho.2.1 y hy).trans hlt.le, a1, ho.2.2.2⟩, ?_, fun _ => rfl,
              fun h => by cases h⟩
            show x ::ₘ ((l'.setRoot v).elems + r.elems) = x ::ₘ (v ::ₘ (l.elems + r.elems))
            have := setRoot_elems v hroot
            rw [h2, Multiset.cons_swap, Multiset.cons_inj_right] at this
            rw [this, Multiset.cons_add]
          · rw [if_neg hc] at h
            cases h
            have hle : key x ≤ key v := by
              cases up' with
              | true =>
                have hroot := h3 rfl
                by_contra hcon
                exact hc (by rw [Bool.true_and]; exact (larger_iff hroot).2 (not_le.1 hcon))
              | false =>
                obtain ⟨e, h5⟩ := h4 rfl
                cases l with
                | nil =>
                  rw [show (Tree.nil : Tree α).root? = none from rfl] at e
                  have : l' = .nil := by cases l' with
                    | nil => rfl
                    | node => cases e
                  subst this
                  exact absurd (h2 ▸ Multiset.mem_cons_self x _ : x ∈ (Tree.nil : Tree α).elems) (Multiset.notMem_zero x)
                | node w l1 r1 => exact (h5 w rfl).trans (ho.1 w (Multiset.mem_cons_self _ _))
            refine ⟨⟨fun y hy => ?_, ho.2.1, h1, ho.2.2.2⟩, ?_, fun h => (by cases h), fun _ => ⟨rfl, fun w hw => by cases hw; exact hle⟩⟩
            · rw [h2] at hy
              rcases Multiset.mem_cons.1 hy with rfl | hy
              · exact hle
              · exact ho.1 y hy
            · show v ::ₘ (l'.elems + r.elems) = x ::ₘ (v ::ₘ (l.elems + r.elems))
              rw [h2, Multiset.cons_add, Multiset.cons_swap]
      | true =>
        unfold Tree.add at h
        cases hl : Tree.add key x bs r with
        | none => rw [hl] at h; cases h
        | some q =>
          obtain ⟨r', up'⟩ := q
          rw [hl] at h
          obtain ⟨h1, h2, h3, h4⟩ := ih r r' up' hb ho.2.2.2 hl
          dsimp only at h
          by_cases hc : (up' && larger key r' v) = true
          · rw [if_pos hc] at h
            rw [Bool.and_eq_true] at hc
            cases h
            have hroot := h3 hc.1
            have hlt := (larger_iff hroot).1 hc.2
            obtain ⟨a1, a2⟩ := setRoot_ordered v hroot h2 h1 ho.2.1
            rw [max_self] at a2
            refine ⟨⟨fun y hy => (ho.1 y hy).trans hlt.le, fun y hy => (a2 y hy).trans hlt.le, ho.2.2.1, a1⟩, ?_, fun _ => rfl,
              fun h => by cases h⟩
            show x ::ₘ (l.elems + (r'.setRoot v).elems) = x ::ₘ (v ::ₘ (l.elems + r.elems))
            have := setRoot_elems v hroot
            rw [h2, Multiset.cons_swap, Multiset.cons_inj_right] at this
            rw [this, Multiset.add_cons]
          · rw [if_neg hc] at h
            cases h
            have hle : key x ≤ key v := by
              cases up' with
              | true =>
                have hroot := h3 rfl
                by_contra hcon
                exact hc (by rw [Bool.true_and]; exact (larger_iff hroot).2 (not_le.1 hcon))
              | false =>
                obtain ⟨e, h5⟩ := h4 rfl
                cases r with
                | nil =>
                  rw [show (Tree.nil : Tree α).root? = none from rfl] at e
                  have : r' = .nil := by cases r' with
                    | nil => rfl
                    | node => cases e
                  subst this
                  exact absurd (h2 ▸ Multiset.mem_cons_self x _ : x ∈ (Tree.nil : Tree α).elems) (Multiset.notMem_zero x)
                | node w l1 r1 => exact (h5 w rfl).trans (ho.2.1 w (Multiset.mem_cons_self _ _))
            refine ⟨⟨ho.1, fun y hy => ?_, ho.2.2.1, h1⟩, ?_, fun h => (by cases h), fun _ => ⟨rfl, fun w hw => by cases hw; exact hle⟩⟩
            · rw [h2] at hy
              rcases Multiset.mem_cons.1 hy with rfl | hy
              · exact hle
              · exact ho.2.1 y hy
            · show v ::ₘ (l.elems + r'.elems) = x ::ₘ (v ::ₘ (l.elems + r.elems))
              rw [h2, Multiset.add_cons, Multiset.cons_swap]

theorem has_nil (p : List Bool) : ¬ (Tree.nil : Tree α).Has p := by
  cases p with
  | nil => exact fun h => h
  | cons b p => cases b <;> exact fun h => h

theorem has_setRoot (v : α) (t : Tree α) (p : List Bool) : (t.setRoot v).Has p ↔ t.Has p := by
  cases t with
  | nil => exact Iff.rfl
  | node w l r =>
    cases p with
    | nil => exact Iff.rfl
    | cons b p => cases b <;> exact Iff.rfl

/-- `add` follows no `NULL` pointer if the parent of the new node exists, and the shape changes by that node. -/
theorem add_shape (key : α → ℤ) (x : α) : ∀ (bs : List Bool) (t : Tree α), ¬ t.Has bs → (∀ b q, bs = q ++ [b] → t.Has q) →
    ∃ t' up, t.add key x bs = some (t', up) ∧ ∀ p, t'.Has p ↔ t.Has p ∨ p = bs := by
  intro bs
  induction bs with
  | nil =>
    intro t hb _
    refine ⟨_, _, rfl, fun p => ?_⟩
    cases t with
    | node v l r => exact absurd trivial hb
    | nil =>
      cases p with
      | nil => simp [Tree.Has]
      | cons b p => cases b <;> simp [Tree.Has]
  | cons b bs ih =>
    intro t hb hp
    cases t with
    | nil =>
      exfalso
      rcases List.eq_nil_or_concat (b :: bs) with h | ⟨q, c, h⟩
      · cases h
      · exact has_nil q (hp c q (by rw [h, List.concat_eq_append]))
    | node v l r =>
      cases b with
      | false =>
        obtain ⟨l', up, e, hs⟩ := ih l hb (fun c q hq => hp c (false :: q) (by rw [hq]; rfl))
        have : ∃ t' up', Tree.add key x (false :: bs) (.node v l r) = some (t', up') ∧ ∃ w l'', t' = .node w l'' r ∧ ∀ p, l''.Has p ↔ l'.Has p := by
          unfold Tree.add
          rw [e]
          dsimp only
          by_cases hc : (up && larger key l' v) = true
          · rw [if_pos hc]; exact ⟨_, _, rfl, _, _, rfl, fun p => has_setRoot v l' p⟩
          · rw [if_neg hc]; exact ⟨_, _, rfl, _, _, rfl, fun p => Iff.rfl⟩
        obtain ⟨t', up', e', w, l'', rfl, hl⟩ := this
        refine ⟨_, _, e', fun p => ?_⟩
        cases p with
        | nil => simp [Tree.Has]
        | cons c p =>
          cases c with
          | false => show l''.Has p ↔ l.Has p ∨ _; rw [hl, hs]; simp
          | true => show r.Has p ↔ r.Has p ∨ _; simp
      | true =>
        obtain ⟨r', up, e, hs⟩ := ih r hb (fun c q hq => hp c (true :: q) (by rw [hq]; rfl))
        have : ∃ t' up', Tree.add key x (true :: bs) (.node v l r) = some (t', up') ∧ ∃ w r'', t' = .node w l r'' ∧ ∀ p, r''.Has p ↔ r'.Has p := by
          unfold Tree.add
          rw [e]
          dsimp only
          by_cases hc : (up && larger key r' v) = true
          · rw [if_pos hc]; exact ⟨_, _, rfl, _, _, rfl, fun p => has_setRoot v r' p⟩
          · rw [if_neg hc]; exact ⟨_, _, rfl, _, _, rfl, fun p => Iff.rfl⟩
        obtain ⟨t', up', e', w, r'', rfl, hr⟩ := this
        refine ⟨_, _, e', fun p => ?_⟩
        cases p with
        | nil => simp [Tree.Has]
        | cons c p =>
          cases c with
          | true => show r''.Has p ↔ r.Has p ∨ _; rw [hr, hs]; simp
          | false => show l.Has p ↔ l.Has p ∨ _; simp

/-- Removing a leaf. -/
theorem takeAt_spec (key : α → ℤ) : ∀ (bs : List Bool) (t : Tree α), t.Has bs → (∀ p, t.Has p → bs <+: p → p = bs) →
    ∃ w t', t.takeAt bs = some (w, t') ∧ t.elems = w ::ₘ t'.elems ∧ (t.Ordered key → t'.Ordered key) ∧ (∀ p, t'.Has p ↔ t.Has p ∧ p ≠ bs) ∧
      (bs ≠ [] → t'.root? = t.root?) := by
  intro bs
  induction bs with
  | nil =>
    intro t hb hleaf
    cases t with
    | nil => exact hb.elim
    | node v l r =>
      have hl : l = .nil := by
        cases l with
        | nil => rfl
        | node => exact absurd (hleaf [false] trivial List.nil_prefix) (by simp)
      have hr : r = .nil := by
        cases r with
        | nil => rfl
        | node => exact absurd (hleaf [true] trivial List.nil_prefix) (by simp)
      subst hl hr
      refine ⟨v, .nil, rfl, rfl, fun _ => trivial, fun p => ?_, fun h => absurd rfl h⟩
      cases p with
      | nil => simp [Tree.Has]
      | cons b p => cases b <;> simp [Tree.Has]
  | cons b bs ih =>
    intro t hb hleaf
    cases t with
    | nil => exact hb.elim
    | node v l r =>
      cases b with
      | false =>
        obtain ⟨w, l', e, h1, h2, h3, -⟩ := ih l hb (fun p hp hpre => by
          have := hleaf (false :: p) hp (List.cons_prefix_cons.2 ⟨rfl, hpre⟩)
          exact List.cons_injective this)
        refine ⟨w, .node v l' r, by unfold Tree.takeAt; rw [e], ?_, fun ho => ?_, fun p => ?_, fun _ => rfl⟩
        · show v ::ₘ (l.elems + r.elems) = w ::ₘ (v ::ₘ (l'.elems + r.elems))
          rw [h1, Multiset.cons_add, Multiset.cons_swap]
        · exact ⟨fun y hy => ho.1 y (h1 ▸ Multiset.mem_cons_of_mem hy), ho.2.1, h2 ho.2.2.1, ho.2.2.2⟩
        · cases p with
          | nil => simp [Tree.Has]
          | cons c p =>
            cases c with
            | false => show l'.Has p ↔ l.Has p ∧ _; rw [h3]; simp
            | true => show r.Has p ↔ r.Has p ∧ _; simp
      | true =>
        obtain ⟨w, r', e, h1, h2, h3, -⟩ := ih r hb (fun p hp hpre => by
          have := hleaf (true :: p) hp (List.cons_prefix_cons.2 ⟨rfl, hpre⟩)
          exact List.cons_injective this)
        refine ⟨w, .node v l r', by unfold Tree.takeAt; rw [e], ?_, fun ho => ?_, fun p => ?_, fun _ => rfl⟩
        · show v ::ₘ (l.elems + r.elems) = w ::ₘ (v ::ₘ (l.elems + r'.elems))
          rw [h1, Multiset.add_cons, Multiset.cons_swap]
        · exact ⟨ho.1, fun y hy => ho.2.1 y (h1 ▸ Multiset.mem_cons_of_mem hy), ho.2.2.1, h2 ho.2.2.2⟩
        · cases p with
          | nil => simp [Tree.Has]
          | cons c p =>
            cases c with
            | true => show r'.Has p ↔ r.Has p ∧ _; rw [h3]; simp
            | false => show l.Has p ↔ l.Has p ∧ _; simp

theorem mem_of_root {t : Tree α} {v : α} (h : t.root? = some v) : v ∈ t.elems := by
  cases t with
  | nil => cases h
  | node w l r => cases h; exact Multiset.mem_cons_self _ _

theorem eq_nil_of_root {t : Tree α} (h : t.root? = none) : t = .nil := by
  cases t with
  | nil => rfl
  | node => cases h

/-- `Restore_Down`: only the root may be out of order. -/
theorem sink_spec (key : α → ℤ) (x : α) : ∀ (t : Tree α), t.Ordered key → ∀ v, t.root? = some v →
    (t.sink key x).Ordered key ∧ v ::ₘ (t.sink key x).elems = x ::ₘ t.elems ∧ ∀ p, (t.sink key x).Has p ↔ t.Has p := by
  intro t
  induction t with
  | nil => intro _ v hv; cases hv
  | node w l r ihl ihr =>
    intro ho v hv
    cases hv
    have stay : (∀ y ∈ l.elems, key y ≤ key x) → (∀ y ∈ r.elems, key y ≤ key x) →
        (Tree.node x l r).Ordered key ∧ w ::ₘ (Tree.node x l r).elems = x ::ₘ (Tree.node w l r).elems ∧
          ∀ p, (Tree.node x l r).Has p ↔ (Tree.node w l r).Has p := by
      intro h1 h2
      refine ⟨⟨h1, h2, ho.2.2.1, ho.2.2.2⟩, Multiset.cons_swap _ _ _, fun p => ?_⟩
      cases p with
      | nil => exact Iff.rfl
      | cons b p => cases b <;> exact Iff.rfl
    have left : ∀ a, l.root? = some a → key x < key a → (∀ y ∈ r.elems, key y ≤ key a) →
        (Tree.node a (l.sink key x) r).Ordered key ∧ w ::ₘ (Tree.node a (l.sink key x) r).elems = x ::ₘ (Tree.node w l r).elems ∧
          ∀ p, (Tree.node a (l.sink key x) r).Has p ↔ (Tree.node w l r).Has p := by
      intro a ha hlt hr
      obtain ⟨h1, h2, h3⟩ := ihl ho.2.2.1 a ha
      refine ⟨⟨fun y hy => ?_, hr, h1, ho.2.2.2⟩, ?_, fun p => ?_⟩
      · have : y ∈ x ::ₘ l.elems := h2 ▸ Multiset.mem_cons_of_mem hy
        rcases Multiset.mem_cons.1 this with rfl | hy
        · exact hlt.le
        · exact Ordered.root_max ho.2.2.1 ha y hy
      · show w ::ₘ (a ::ₘ ((l.sink key x).elems + r.elems)) = x ::ₘ (w ::ₘ (l.elems + r.elems))
        rw [← Multiset.cons_add, h2, Multiset.cons_add, Multiset.cons_swap]
      · cases p with
        | nil => exact Iff.rfl
        | cons b p =>
          cases b with
          | false => exact h3 p
          | true => exact Iff.rfl
    have right : ∀ a, r.root? = some a → key x < key a → (∀ y ∈ l.elems, key y ≤ key a) →
        (Tree.node a l (r.sink key x)).Ordered key ∧ w ::ₘ (Tree.node a l (r.sink key x)).elems = x ::ₘ (Tree.node w l r).elems ∧
          ∀ p, (Tree.node a l (r.sink key x)).Has p ↔ (Tree.node w l r).Has p := by
      intro a ha hlt hl
      obtain ⟨h1, h2, h3⟩ := ihr ho.2.2.2 a ha
      refine ⟨⟨hl, fun y hy => ?_, ho.2.2.1, h1⟩, ?_, fun p => ?_⟩
      · have : y ∈ x ::ₘ r.elems := h2 ▸ Multiset.mem_cons_of_mem hy
        rcases Multiset.mem_cons.1 this with rfl | hy
        · exact hlt.le
        · exact Ordered.root_max ho.2.2.2 ha y hy
      · show w ::ₘ (a ::ₘ (l.elems + (r.sink key x).elems)) = x ::ₘ (w ::ₘ (l.elems + r.elems))
        rw [← Multiset.add_cons, h2, Multiset.add_cons, Multiset.cons_swap]
      · cases p with
        | nil => exact Iff.rfl
        | cons b p =>
          cases b with
          | true => exact h3 p
          | false => exact Iff.rfl
    have le_of : ∀ {s : Tree α} {a : α}, s.Ordered key → s.root? = some a → key a ≤ key x → ∀ y ∈ s.elems, key y ≤ key x :=
      fun hs ha hle y hy => (Ordered.root_max hs ha y hy).trans hle
    have none_of : ∀ {s : Tree α} {k : ℤ}, s.root? = none → ∀ y ∈ s.elems, key y ≤ k := by
      intro s k hs y hy
      rw [eq_nil_of_root hs] at hy
      exact absurd hy (Multiset.notMem_zero y)
    unfold Tree.sink
    cases hl : l.root? with
    | none =>
      cases hr : r.root? with
      | none => exact stay (none_of hl) (none_of hr)
      | some b =>
        dsimp only
        by_cases hc : key b ≤ key x
        · rw [if_pos hc]; exact stay (none_of hl) (le_of ho.2.2.2 hr hc)
        · rw [if_neg hc]; exact right b hr (not_le.1 hc) (none_of hl)
    | some a =>
      cases hr : r.root? with
      | none =>
        dsimp only
        by_cases hc : key a ≤ key x
        · rw [if_pos hc]; exact stay (le_of ho.2.2.1 hl hc) (none_of hr)
        · rw [if_neg hc]; exact left a hl (not_le.1 hc) (none_of hr)
      | some b =>
        dsimp only
        by_cases hc : ¬ key a ≤ key x ∧ (¬ key b ≤ key x → key b < key a)
        · rw [if_pos hc]
          refine left a hl (not_le.1 hc.1) fun y hy => (Ordered.root_max ho.2.2.2 hr y hy).trans ?_
          by_cases hb : key b ≤ key x
          · exact hb.trans (not_le.1 hc.1).le
          · exact (hc.2 hb).le
        · rw [if_neg hc]
          by_cases hb : ¬ key b ≤ key x
          · rw [if_pos hb]
            refine right b hr (not_le.1 hb) fun y hy => (Ordered.root_max ho.2.2.1 hl y hy).trans ?_
            by_contra hcon
            have hba := not_le.1 hcon
            exact hc ⟨fun h => hb (hba.le.trans h), fun _ => hba⟩
          · rw [if_neg hb]
            have hb' := not_not.1 hb
            refine stay (le_of ho.2.2.1 hl ?_) (le_of ho.2.2.2 hr hb')
            by_contra hcon
            exact hc ⟨hcon, fun h => absurd hb' h⟩

/-! ## The operations -/

theorem num_prefix {p q : List Bool} (h : p <+: q) : num p ≤ num q := by
  obtain ⟨s, rfl⟩ := h
  induction s using List.reverseRecOn with
  | nil => simp
  | append_singleton s b ih => rw [← List.append_assoc, num_append]; omega

/-- **C78, the empty heap.** -/
theorem c78_empty (key : α → ℤ) : (Heap.empty : Heap α).Ok key ∧ (Heap.empty : Heap α).elems = 0 :=
  ⟨⟨trivial, fun p => by
    show Tree.Has p .nil ↔ num p ≤ 0
    have := num_pos p
    have : ¬ num p ≤ 0 := by omega
    cases p with
    | nil => exact iff_of_false (fun h => h) this
    | cons b p => cases b <;> exact iff_of_false (fun h => h) this⟩, rfl⟩

/-- **C78, adding.** On every heap that has been built by adding and popping, adding an element follows no null pointer, and puts the element into the multiset. -/
theorem c78_add (key : α → ℤ) (x : α) (h : Heap α) (ho : h.Ok key) :
    ∃ h', h.add key x = some h' ∧ h'.Ok key ∧ h'.elems = x ::ₘ h.elems ∧ h'.count = h.count + 1 := by
  obtain ⟨c, t⟩ := h
  unfold Heap.add
  by_cases hc : c ≠ 0
  · rw [if_pos hc]
    have hn := num_path (c + 1) (by omega)
    have hnot : ¬ t.Has (path (c + 1)) := by
      intro hh
      have := (ho.shape _).1 hh
      rw [hn] at this
      dsimp only at this
      omega
    obtain ⟨t', up, e, hs⟩ := add_shape key x (path (c + 1)) t hnot (fun b q hq => by
      rw [ho.shape]
      rw [hq, num_append] at hn
      dsimp only
      have := Bool.toNat_le b
      have := num_pos q
      omega)
    dsimp only
    rw [e]
    obtain ⟨h1, h2, -, -⟩ := add_ordered key x _ t t' up hnot ho.ordered e
    refine ⟨_, rfl, ⟨h1, fun p => ?_⟩, h2, rfl⟩
    rw [hs, ho.shape]
    dsimp only
    constructor
    · rintro (h | rfl)
      · omega
      · rw [hn]
    · intro h
      rcases Nat.lt_or_ge c (num p) with hlt | hge
      · right
        apply num_injective
        rw [hn]
        omega
      · exact Or.inl hge
  · rw [if_neg hc]
    push Not at hc
    subst hc
    have ht : t = .nil := by
      cases t with
      | nil => rfl
      | node v l r =>
        have := (ho.shape []).1 trivial
        exact absurd this (show ¬ 1 ≤ 0 by decide)
    subst ht
    refine ⟨_, rfl, ⟨⟨by simp [Tree.elems], by simp [Tree.elems], trivial, trivial⟩, fun p => ?_⟩, rfl, rfl⟩
    cases p with
    | nil => simp [Tree.Has, num]
    | cons b p =>
      have h1 : num (b :: p) ≠ 1 := by
        intro hcon
        have := num_injective (a₁ := b :: p) (a₂ := []) hcon
        cases this
      have h2 := num_pos (b :: p)
      refine iff_of_false (fun hh => by cases b <;> exact has_nil p hh) (by show ¬ num (b :: p) ≤ 0 + 1; omega)

/-- **C78, popping.** On every non-empty heap popping follows no null pointer; it returns an element with the largest key, and removes exactly that one. -/
theorem c78_pop (key : α → ℤ) (h : Heap α) (ho : h.Ok key) (hne : h.elems ≠ 0) :
    ∃ v h', h.pop key = some (v, h') ∧ h'.Ok key ∧ h.elems = v ::ₘ h'.elems ∧ (∀ x ∈ h.elems, key x ≤ key v) ∧ h'.count = h.count - 1 := by
  obtain ⟨c, t⟩ := h
  cases hroot : t.root? with
  | none => exact absurd (show t.elems = 0 by rw [eq_nil_of_root hroot]; rfl) hne
  | some v =>
    have hmax := Ordered.root_max ho.ordered hroot
    unfold Heap.pop
    dsimp only
    rw [hroot]
    dsimp only
    have h1 : 1 ≤ c := by
      have : t.Has [] := by
        cases t with
        | nil => cases hroot
        | node => trivial
      exact (ho.shape []).1 this
    by_cases hc : c ≠ 1
    · rw [if_pos hc]
      have hn := num_path c h1
      obtain ⟨w, t', e, a1, a2, a3, a4⟩ := takeAt_spec key (path c) t ((ho.shape _).2 (by rw [hn])) (fun p hp hpre => by
        apply num_injective
        have b1 := num_prefix hpre
        have b2 := (ho.shape p).1 hp
        dsimp only at b2
        omega)
      rw [e]
      have hroot' : t'.root? = some v := by
        rw [a4 ?_, hroot]
        intro hcon
        rw [hcon] at hn
        exact hc hn.symm
      obtain ⟨b1, b2, b3⟩ := sink_spec key w t' (a2 ho.ordered) v hroot'
      refine ⟨_, _, rfl, ⟨b1, fun p => ?_⟩, a1.trans b2.symm, hmax, rfl⟩
      show (t'.sink key w).Has p ↔ _
      rw [b3, a3, ho.shape]
      dsimp only
      constructor
      · rintro ⟨c1, c2⟩
        have : num p ≠ c := fun hcon => c2 (num_injective (by rw [hn, hcon]))
        omega
      · intro c1
        refine ⟨by omega, fun hcon => ?_⟩
        rw [hcon, hn] at c1
        omega
    · rw [if_neg hc]
      push Not at hc
      subst hc
      refine ⟨v, _, rfl, (c78_empty key).1, ?_, hmax, rfl⟩
      cases t with
      | nil => cases hroot
      | node u l r =>
        cases hroot
        have hl : l = .nil := by
          cases l with
          | nil => rfl
          | node => exact absurd ((ho.shape [false]).1 trivial) (show ¬ 2 ≤ 1 by decide)
        have hr : r = .nil := by
          cases r with
          | nil => rfl
          | node => exact absurd ((ho.shape [true]).1 trivial) (show ¬ 3 ≤ 1 by decide)
        subst hl hr
        rfl

/-- **C78, popping an empty heap** is noticed. -/
theorem c78_pop_empty (key : α → ℤ) (h : Heap α) (hne : h.elems = 0) : h.pop key = none := by
  obtain ⟨c, t⟩ := h
  cases t with
  | nil => rfl
  | node v l r => exact absurd (hne ▸ Multiset.mem_cons_self v _ : v ∈ (0 : Multiset α)) (Multiset.notMem_zero v)

/-- **C78, comparing the top** answers whether the largest key in the heap is the given one. -/
theorem c78_top (key : α → ℤ) (k : ℤ) (h : Heap α) (ho : h.Ok key) :
    h.topIs key k = true ↔ (∃ x ∈ h.elems, key x = k) ∧ ∀ x ∈ h.elems, key x ≤ k := by
  obtain ⟨c, t⟩ := h
  unfold Heap.topIs
  cases hroot : t.root? with
  | none =>
    dsimp only
    rw [eq_nil_of_root hroot]
    refine iff_of_false (by simp) ?_
    rintro ⟨⟨x, hx, -⟩, -⟩
    exact Multiset.notMem_zero x hx
  | some v =>
    have hmax := Ordered.root_max ho.ordered hroot
    show (key v == k) = true ↔ _
    rw [beq_iff_eq]
    constructor
    · rintro rfl
      exact ⟨⟨v, mem_of_root hroot, rfl⟩, hmax⟩
    · rintro ⟨⟨x, hx, rfl⟩, h2⟩
      exact le_antisymm (h2 v (mem_of_root hroot)) (hmax x hx)

/-! ## Histories -/

/-- An operation of a client. -/
inductive Op (α : Type) where
  | add (x : α)
  | pop

/-- A run of operations: what the `pop`s return (`none`: empty), and the final heap. -/
def run (key : α → ℤ) : List (Op α) → Heap α → Option (List (Option α) × Heap α)
  | [], h => some ([], h)
  | .add x :: ops, h =>
    match h.add key x with
    | none => none
    | some h' => run key ops h'
  | .pop :: ops, h =>
    match h.tree.root? with
    | none =>
      match run key ops h with
      | none => none
      | some (out, h') => some (none :: out, h')
    | some _ =>
      match h.pop key with
      | none => none
      | some (v, h') =>
        match run key ops h' with
        | none => none
        | some (out, h'') => some (some v :: out, h'')

/-- **Specification.** What a priority queue may answer: `Serves key ops M out M'` if starting with the multiset `M` the operations can return `out` and
leave `M'`. -/
inductive Serves (key : α → ℤ) : List (Op α) → Multiset α → List (Option α) → Multiset α → Prop
  | nil (M) : Serves key [] M [] M
  | add (x ops M out M') : Serves key ops (x ::ₘ M) out M' → Serves key (.add x :: ops) M out M'
  | empty (ops out M') : Serves key ops 0 out M' → Serves key (.pop :: ops) 0 (none :: out) M'
  | pop (v ops M out M') : (∀ x ∈ M, key x ≤ key v) → Serves key ops M out M' → Serves key (.pop :: ops) (v ::ₘ M) (some v :: out) M'

/-- **C78, histories.** Every sequence of operations on a new heap runs without following a null pointer and answers as a priority queue does. -/
theorem c78_history (key : α → ℤ) (ops : List (Op α)) :
    ∃ out h, run key ops Heap.empty = some (out, h) ∧ h.Ok key ∧ Serves key ops 0 out h.elems := by
  have key' : ∀ (ops : List (Op α)) (h : Heap α), h.Ok key → ∃ out h', run key ops h = some (out, h') ∧ h'.Ok key ∧ Serves key ops h.elems out h'.elems := by
    intro ops
    induction ops with
    | nil => intro h ho; exact ⟨[], h, rfl, ho, Serves.nil _⟩
    | cons op ops ih =>
      intro h ho
      cases op with
      | add x =>
        obtain ⟨h1, e1, o1, m1, -⟩ := c78_add key x h ho
        obtain ⟨out, h2, e2, o2, s2⟩ := ih h1 o1
        rw [m1] at s2
        exact ⟨out, h2, by unfold run; rw [e1]; exact e2, o2, Serves.add _ _ _ _ _ s2⟩
      | pop =>
        cases hroot : h.tree.root? with
        | none =>
          obtain ⟨out, h2, e2, o2, s2⟩ := ih h ho
          have hz : h.elems = 0 := by unfold Heap.elems; rw [eq_nil_of_root hroot]; rfl
          rw [hz] at s2 ⊢
          exact ⟨none :: out, h2, by unfold run; rw [hroot]; simp only [e2], o2, Serves.empty _ _ _ s2⟩
        | some w =>
          have hne : h.elems ≠ 0 := by
            intro hcon
            have : w ∈ h.elems := mem_of_root hroot
            rw [hcon] at this
            exact Multiset.notMem_zero w this
          obtain ⟨v, h1, e1, o1, m1, hmax, -⟩ := c78_pop key h ho hne
          obtain ⟨out, h2, e2, o2, s2⟩ := ih h1 o1
          refine ⟨some v :: out, h2, by unfold run; rw [hroot]; simp only [e1, e2], o2, ?_⟩
          rw [m1]
          exact Serves.pop _ _ _ _ _ (fun x hx => hmax x (m1 ▸ Multiset.mem_cons_of_mem hx)) s2
  have := key' ops Heap.empty (c78_empty key).1
  rwa [(c78_empty key).2] at this

/-- A history of eight operations with ties. -/
example : (run (fun z : ℤ => z) [.add 3, .add 7, .add 5, .add 7, .pop, .add 9, .pop, .pop, .pop, .pop, .pop] Heap.empty).map (·.1) =
    some [some 7, some 9, some 7, some 5, some 3, none] := by decide

end Verif.Digging
