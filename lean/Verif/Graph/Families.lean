import Verif.Graph.Random
import Mathlib.Combinatorics.SimpleGraph.Hasse
import Mathlib.Combinatorics.SimpleGraph.Circulant

/-!
Property C60: the deterministic graph families (path, cycle, wheel, grid, Petersen) and `nchoosek`.
-/

namespace Verif.Graph

/-! ### pushing a list of pairs -/

/-- push all pairs of a list -/
def pushAll (E : Edges) (ops : List (ℕ × ℕ)) : Edges := ops.foldl (fun E p => push E p.1 p.2) E

theorem pushAll_append (E : Edges) (a b : List (ℕ × ℕ)) : pushAll (pushAll E a) b = pushAll E (a ++ b) := by
  simp [pushAll, List.foldl_append]

theorem foldl_push {α : Type*} (l : List α) (f g : α → ℕ) (E : Edges) :
    l.foldl (fun E k => push E (f k) (g k)) E = pushAll E (l.map fun k => (f k, g k)) := by
  simp [pushAll, List.foldl_map]

theorem pushAll_spec {n : ℕ} (ops : List (ℕ × ℕ)) : ∀ {E : Edges}, Simple n E → ops.Nodup →
    (∀ p ∈ ops, p.1 < p.2 ∧ p.2 < n) → (∀ p ∈ ops, ¬ Listed E p.1 p.2) →
    Simple n (pushAll E ops) ∧ ∀ u v, Listed (pushAll E ops) u v ↔ Listed E u v ∨ (u, v) ∈ ops := by
  induction ops with
  | nil => intro E h _ _ _; exact ⟨h, fun u v => by simp [pushAll]⟩
  | cons p ops ih =>
    intro E h hnd hord hnew
    have hp := hord p (by simp)
    obtain ⟨h1, h2⟩ := append_spec h hp.1 hp.2 (hnew p (by simp))
    have hpush : push E p.1 p.2 = E.set p.1 (E.getD p.1 [] ++ [p.2]) := by
      unfold push; rw [if_pos]; rw [h.length]; omega
    rw [← hpush] at h1 h2
    obtain ⟨h3, h4⟩ := ih h1 (List.nodup_cons.1 hnd).2 (fun q hq => hord q (List.mem_cons_of_mem _ hq)) (by
      intro q hq hl
      rcases (h2 _ _).1 hl with hl | ⟨e1, e2⟩
      · exact hnew q (List.mem_cons_of_mem _ hq) hl
      · apply (List.nodup_cons.1 hnd).1
        rwa [show p = q from Prod.ext e1.symm e2.symm])
    refine ⟨h3, fun u v => ?_⟩
    have : pushAll E (p :: ops) = pushAll (push E p.1 p.2) ops := rfl
    rw [this, h4, h2, List.mem_cons, or_assoc]
    simp only [Prod.ext_iff]

theorem not_listed_empty (n u v : ℕ) : ¬ Listed (emptyEdges n) u v := by
  intro h
  have := (simple_empty n).order u v h
  unfold Listed emptyEdges at h
  simp only [List.getD_eq_getElem?_getD, List.getElem?_replicate] at h
  split at h <;> simp at h

/-- a generator that pushes a list of distinct, ordered pairs onto the empty lists -/
theorem pushAll_empty {n : ℕ} (ops : List (ℕ × ℕ)) (hnd : ops.Nodup) (hord : ∀ p ∈ ops, p.1 < p.2 ∧ p.2 < n) :
    Simple n (pushAll (emptyEdges n) ops) ∧
      ∀ u v : Fin n, (graphOf n (pushAll (emptyEdges n) ops)).Adj u v ↔
        ((u : ℕ), (v : ℕ)) ∈ ops ∨ ((v : ℕ), (u : ℕ)) ∈ ops := by
  obtain ⟨h1, h2⟩ := pushAll_spec ops (simple_empty n) hnd hord (fun p _ => not_listed_empty n p.1 p.2)
  refine ⟨h1, fun u v => ?_⟩
  simp only [graphOf, h2, not_listed_empty, false_or]
  constructor
  · exact fun h => h.2
  · intro h
    refine ⟨?_, h⟩
    rintro rfl
    rcases h with h | h <;> exact absurd (hord _ h).1 (lt_irrefl _)

/-- the pairs `(0,1), (1,2), …, (m-1,m)` -/
def pathOps (m : ℕ) : List (ℕ × ℕ) := (List.range m).map fun k => (k, k + 1)

theorem mem_pathOps (m u v : ℕ) : (u, v) ∈ pathOps m ↔ v = u + 1 ∧ u < m := by
  simp only [pathOps, List.mem_map, List.mem_range, Prod.mk.injEq]
  constructor
  · rintro ⟨k, h1, rfl, rfl⟩; exact ⟨rfl, h1⟩
  · rintro ⟨rfl, h⟩; exact ⟨u, h, rfl, rfl⟩

theorem nodup_pathOps (m : ℕ) : (pathOps m).Nodup :=
  List.nodup_range.map (fun a b h => (Prod.ext_iff.1 h).1)

/-- **C60** `makeLinearGraph` makes the path on `size` vertices, for every size above 1. -/
theorem c60_linear (size : ℕ) (hs : 1 < size) (old : Edges) :
    Simple size (makeLinearGraph size old) ∧ graphOf size (makeLinearGraph size old) = SimpleGraph.pathGraph size := by
  unfold makeLinearGraph
  rw [if_neg (by omega), foldl_push]
  obtain ⟨h1, h2⟩ := pushAll_empty (n := size) (pathOps (size - 1)) (nodup_pathOps _) (by
    rintro ⟨a, b⟩ hp
    rw [mem_pathOps] at hp
    simp only; omega)
  refine ⟨h1, ?_⟩
  ext u v
  refine (h2 u v).trans ?_
  rw [SimpleGraph.pathGraph_adj, mem_pathOps, mem_pathOps]
  have := u.2; have := v.2
  omega

/-- **C60** `makeCircleGraph` makes the cycle on `size` vertices, for every size above 2. -/
theorem c60_circle (size : ℕ) (hs : 2 < size) (old : Edges) :
    Simple size (makeCircleGraph size old) ∧
      graphOf size (makeCircleGraph size old) = SimpleGraph.cycleGraph size := by
  unfold makeCircleGraph
  rw [if_neg (by omega), foldl_push,
    show push (pushAll (emptyEdges size) ((List.range (size - 1)).map fun k => (k, k + 1))) 0 (size - 1) =
      pushAll (emptyEdges size) (pathOps (size - 1) ++ [(0, size - 1)]) from by rw [← pushAll_append]; rfl]
  obtain ⟨h1, h2⟩ := pushAll_empty (n := size) (pathOps (size - 1) ++ [(0, size - 1)]) (by
      rw [List.nodup_append]
      refine ⟨nodup_pathOps _, List.nodup_singleton _, ?_⟩
      rintro ⟨a, b⟩ hp q hq rfl
      rw [mem_pathOps] at hp
      simp at hq; omega) (by
    rintro ⟨a, b⟩ hp
    rw [List.mem_append, mem_pathOps] at hp
    simp only [List.mem_singleton, Prod.mk.injEq] at hp
    simp only; omega)
  refine ⟨h1, ?_⟩
  ext u v
  refine (h2 u v).trans ?_
  rw [SimpleGraph.cycleGraph_adj', Fin.sub_def, Fin.sub_def]
  simp only [List.mem_append, mem_pathOps, List.mem_singleton, Prod.mk.injEq]
  have hu := u.2
  have hv := v.2
  have key : ∀ a b : ℕ, a < size → b < size → ((size - b + a) % size = 1 ↔ a = b + 1 ∨ (a = 0 ∧ b = size - 1)) := by
    intro a b ha hb
    rcases le_or_gt b a with hab | hab
    · rw [show size - b + a = (a - b) + size by omega, Nat.add_mod_right, Nat.mod_eq_of_lt (by omega)]
      omega
    · rw [Nat.mod_eq_of_lt (by omega)]
      omega
  rw [key u v hu hv, key v u hv hu]
  omega

/-- **C60** `makeCircleWithCenter`: a cycle on the first `size - 1` vertices, and a last vertex joined to every
`offset`-th vertex of the cycle. -/
theorem c60_wheel (size offset : ℕ) (hs : 3 < size) (ho : 0 < offset) (old : Edges) :
    ∃ E, makeCircleWithCenter size offset old = some E ∧ Simple size E ∧
      ∀ u v : Fin size, (graphOf size E).Adj u v ↔
        ((u : ℕ) + 1 = v ∧ (v : ℕ) ≠ size - 1) ∨ ((v : ℕ) + 1 = u ∧ (u : ℕ) ≠ size - 1) ∨
        ((u : ℕ) = 0 ∧ (v : ℕ) = size - 2) ∨ ((v : ℕ) = 0 ∧ (u : ℕ) = size - 2) ∨
        ((u : ℕ) ≠ size - 1 ∧ offset ∣ u ∧ (v : ℕ) = size - 1) ∨
        ((v : ℕ) ≠ size - 1 ∧ offset ∣ v ∧ (u : ℕ) = size - 1) := by
  set spokes : List (ℕ × ℕ) :=
    ((List.range (size - 1)).filter fun k => decide (k % offset = 0)).map fun k => (k, size - 1) with hsp
  have hmem : ∀ u v, (u, v) ∈ spokes ↔ u < size - 1 ∧ offset ∣ u ∧ v = size - 1 := by
    intro u v
    simp only [hsp, List.mem_map, List.mem_filter, List.mem_range, decide_eq_true_eq, Prod.mk.injEq]
    constructor
    · rintro ⟨k, ⟨h1, h2⟩, rfl, rfl⟩; exact ⟨h1, Nat.dvd_of_mod_eq_zero h2, rfl⟩
    · rintro ⟨h1, h2, rfl⟩; exact ⟨u, ⟨h1, Nat.mod_eq_zero_of_dvd h2⟩, rfl, rfl⟩
  have hfold : ∀ (l : List ℕ) (E : Edges),
      l.foldl (fun E k => if k % offset = 0 then push E k (size - 1) else E) E =
        pushAll E ((l.filter fun k => decide (k % offset = 0)).map fun k => (k, size - 1)) := by
    intro l
    induction l with
    | nil => intro E; rfl
    | cons a l ih =>
      intro E
      rw [List.foldl_cons, ih]
      by_cases h : a % offset = 0
      · simp [h, pushAll]
      · simp [h]
  have hE : makeCircleWithCenter size offset old =
      some (pushAll (emptyEdges size) ((pathOps (size - 2) ++ [(0, size - 2)]) ++ spokes)) := by
    unfold makeCircleWithCenter
    rw [if_neg (by omega)]
    simp only [if_neg (show ¬ offset = 0 by omega), hfold]
    rw [← pushAll_append, ← pushAll_append, foldl_push]
    rfl
  refine ⟨_, hE, ?_⟩
  obtain ⟨h1, h2⟩ := pushAll_empty (n := size) ((pathOps (size - 2) ++ [(0, size - 2)]) ++ spokes) (by
      rw [List.nodup_append, List.nodup_append]
      refine ⟨⟨nodup_pathOps _, List.nodup_singleton _, ?_⟩, ?_, ?_⟩
      · rintro ⟨a, b⟩ hp q hq rfl
        rw [mem_pathOps] at hp
        simp at hq; omega
      · exact (List.nodup_range.filter _).map (fun a b h => (Prod.ext_iff.1 h).1)
      · rintro ⟨a, b⟩ hp q hq rfl
        rw [hmem] at hq
        rw [List.mem_append, mem_pathOps] at hp
        simp only [List.mem_singleton, Prod.mk.injEq] at hp
        omega) (by
    rintro ⟨a, b⟩ hp
    rw [List.mem_append, List.mem_append, mem_pathOps, hmem] at hp
    simp only [List.mem_singleton, Prod.mk.injEq] at hp
    simp only; omega)
  refine ⟨h1, fun u v => (h2 u v).trans ?_⟩
  simp only [List.mem_append, mem_pathOps, hmem, List.mem_singleton, Prod.mk.injEq]
  have hu := u.2
  have hv := v.2
  constructor
  · rintro (((h | h) | h) | ((h | h) | h))
    · exact Or.inl ⟨h.1.symm, by omega⟩
    · exact Or.inr (Or.inr (Or.inl h))
    · exact Or.inr (Or.inr (Or.inr (Or.inr (Or.inl ⟨by omega, h.2⟩))))
    · exact Or.inr (Or.inl ⟨h.1.symm, by omega⟩)
    · exact Or.inr (Or.inr (Or.inr (Or.inl h)))
    · exact Or.inr (Or.inr (Or.inr (Or.inr (Or.inr ⟨by omega, h.2⟩))))
  · rintro (h | h | h | h | h | h)
    · exact Or.inl (Or.inl (Or.inl ⟨h.1.symm, by omega⟩))
    · exact Or.inr (Or.inl (Or.inl ⟨h.1.symm, by omega⟩))
    · exact Or.inl (Or.inl (Or.inr h))
    · exact Or.inr (Or.inl (Or.inr h))
    · exact Or.inl (Or.inr ⟨by omega, h.2⟩)
    · exact Or.inr (Or.inr ⟨by omega, h.2⟩)

/-- with `offset = 0` the code divides by zero -/
theorem c60_wheel_offset_zero (size : ℕ) (hs : 3 < size) (old : Edges) : makeCircleWithCenter size 0 old = none := by
  unfold makeCircleWithCenter
  rw [if_neg (by omega)]
  rfl

/-! ### the grid -/

/-- the pairs pushed by the first double loop of `makeCheckerboard` -/
def gridOps (row col : ℕ) : List (ℕ × ℕ) :=
  (List.range (row - 1)).flatMap fun r => (List.range (col - 1)).flatMap fun c =>
    [(r * col + c, r * col + c + 1), (r * col + c, (r + 1) * col + c)]

/-- right edge -/
def rightOps (row col : ℕ) : List (ℕ × ℕ) :=
  (List.range (row - 1)).map fun r => (r * col + col - 1, (r + 1) * col + col - 1)

/-- bottom edge -/
def bottomOps (row col : ℕ) : List (ℕ × ℕ) :=
  (List.range (col - 1)).map fun c => ((row - 1) * col + c, (row - 1) * col + c + 1)

theorem pushAll_flatMap {α : Type*} (l : List α) (f : α → List (ℕ × ℕ)) (E : Edges) :
    l.foldl (fun E a => pushAll E (f a)) E = pushAll E (l.flatMap f) := by
  induction l generalizing E with
  | nil => rfl
  | cons a l ih => rw [List.foldl_cons, ih, pushAll_append, List.flatMap_cons]

theorem checkerboard_ops (row col : ℕ) (hr : 1 < row) (hc : 1 < col) (old : Edges) :
    makeCheckerboard row col old =
      pushAll (emptyEdges (row * col)) ((gridOps row col ++ rightOps row col) ++ bottomOps row col) := by
  unfold makeCheckerboard
  rw [if_neg (by omega)]
  simp only [foldl_push]
  have h : ∀ (E : Edges) (r : ℕ), (List.range (col - 1)).foldl (fun E c =>
      push (push E (r * col + c) (r * col + c + 1)) (r * col + c) ((r + 1) * col + c)) E =
      pushAll E ((List.range (col - 1)).flatMap fun c =>
        [(r * col + c, r * col + c + 1), (r * col + c, (r + 1) * col + c)]) := by
    intro E r
    rw [← pushAll_flatMap]
    rfl
  simp only [h, pushAll_flatMap, ← pushAll_append]
  rfl

/-- position of a cell -/
theorem cell_unique {col r c r' c' : ℕ} (hc : c < col) (hc' : c' < col) (h : r * col + c = r' * col + c') :
    r = r' ∧ c = c' := by
  have h1 : (r * col + c) / col = r := by
    rw [mul_comm, Nat.mul_add_div (by omega), Nat.div_eq_of_lt hc]; rfl
  have h2 : (r' * col + c') / col = r' := by
    rw [mul_comm, Nat.mul_add_div (by omega), Nat.div_eq_of_lt hc']; rfl
  have hr : r = r' := by rw [← h1, ← h2, h]
  subst hr
  exact ⟨rfl, by omega⟩

theorem cell_lt {row col r c : ℕ} (hr : r < row) (hc : c < col) : r * col + c < row * col := by
  calc r * col + c < r * col + col := by omega
    _ = (r + 1) * col := by ring
    _ ≤ row * col := Nat.mul_le_mul_right _ hr

/-- the edges of the grid, as pairs of cells -/
def GridPair (row col : ℕ) (p : ℕ × ℕ) : Prop :=
  ∃ r c, r < row ∧ c < col ∧
    ((c + 1 < col ∧ p = (r * col + c, r * col + (c + 1))) ∨ (r + 1 < row ∧ p = (r * col + c, (r + 1) * col + c)))

theorem mem_gridOps (row col : ℕ) (hr : 1 < row) (hc : 1 < col) (p : ℕ × ℕ) :
    p ∈ (gridOps row col ++ rightOps row col) ++ bottomOps row col ↔ GridPair row col p := by
  simp only [List.mem_append, gridOps, rightOps, bottomOps, List.mem_flatMap, List.mem_map, List.mem_range,
    List.mem_cons, List.not_mem_nil, or_false]
  constructor
  · rintro ((⟨r, h1, c, h2, rfl | rfl⟩ | ⟨r, h1, rfl⟩) | ⟨c, h1, rfl⟩)
    · exact ⟨r, c, by omega, by omega, Or.inl ⟨by omega, rfl⟩⟩
    · exact ⟨r, c, by omega, by omega, Or.inr ⟨by omega, rfl⟩⟩
    · exact ⟨r, col - 1, by omega, by omega, Or.inr ⟨by omega, by
        rw [Nat.add_sub_assoc (by omega), Nat.add_sub_assoc (by omega)]⟩⟩
    · exact ⟨row - 1, c, by omega, by omega, Or.inl ⟨by omega, rfl⟩⟩
  · rintro ⟨r, c, h1, h2, ⟨h3, rfl⟩ | ⟨h3, rfl⟩⟩
    · by_cases hr' : r + 1 < row
      · exact Or.inl (Or.inl ⟨r, by omega, c, by omega, Or.inl rfl⟩)
      · refine Or.inr ⟨c, by omega, ?_⟩
        rw [show row - 1 = r by omega]; rfl
    · by_cases hc' : c + 1 < col
      · exact Or.inl (Or.inl ⟨r, by omega, c, by omega, Or.inr rfl⟩)
      · refine Or.inl (Or.inr ⟨r, by omega, ?_⟩)
        rw [Nat.add_sub_assoc (by omega), Nat.add_sub_assoc (by omega), show col - 1 = c by omega]

theorem nodup_gridOps (row col : ℕ) (hc : 1 < col) :
    ((gridOps row col ++ rightOps row col) ++ bottomOps row col).Nodup := by
  have hright : (rightOps row col).Nodup := by
    apply List.nodup_range.map
    intro a b h
    have h1 := (Prod.ext_iff.1 h).1
    simp only at h1
    rw [Nat.add_sub_assoc (by omega), Nat.add_sub_assoc (by omega)] at h1
    exact (cell_unique (by omega) (by omega) h1).1
  have hbottom : (bottomOps row col).Nodup := by
    apply List.nodup_range.map
    intro a b h
    have h1 := (Prod.ext_iff.1 h).1
    simp only at h1
    omega
  have hgrid : (gridOps row col).Nodup := by
    unfold gridOps
    rw [List.nodup_flatMap]
    refine ⟨fun r _ => ?_, ?_⟩
    · rw [List.nodup_flatMap]
      refine ⟨fun c hcm => ?_, ?_⟩
      · simp only [List.nodup_cons, List.mem_singleton, Prod.mk.injEq, List.not_mem_nil, not_false_eq_true,
          List.nodup_nil, and_true, true_and]
        intro h
        have : (r + 1) * col = r * col + col := by ring
        omega
      · apply List.nodup_range.pairwise_of_forall_ne
        intro c hc1 c' hc2 hne
        have hc1 := List.mem_range.1 hc1
        have hc2 := List.mem_range.1 hc2
        simp only [Function.onFun, List.disjoint_left, List.mem_cons, List.not_mem_nil, or_false]
        rintro p (rfl | rfl) (h | h) <;>
        · have h1 := (Prod.ext_iff.1 h).1
          simp only at h1
          exact hne (by omega)
    · apply List.nodup_range.pairwise_of_forall_ne
      intro r hr1 r' hr2 hne
      simp only [Function.onFun, List.disjoint_left, List.mem_flatMap, List.mem_cons, List.not_mem_nil, or_false,
        List.mem_range]
      rintro p ⟨c, hc1, rfl | rfl⟩ ⟨c', hc2, h | h⟩ <;>
      · have h1 := (Prod.ext_iff.1 h).1
        simp only at h1
        exact hne (cell_unique (by omega) (by omega) h1).1
  rw [List.nodup_append, List.nodup_append]
  refine ⟨⟨hgrid, hright, ?_⟩, hbottom, ?_⟩
  · intro p hp q hq hpq
    subst hpq
    simp only [gridOps, rightOps, List.mem_flatMap, List.mem_map, List.mem_range, List.mem_cons, List.not_mem_nil,
      or_false] at hp hq
    obtain ⟨r, h1, c, h2, h3⟩ := hp
    obtain ⟨r', h4, h5⟩ := hq
    have e1 : p.1 = r * col + c := by rcases h3 with rfl | rfl <;> rfl
    have e2 : p.1 = r' * col + (col - 1) := by rw [← h5]; simp only; omega
    have := (cell_unique (by omega) (by omega) (e1.symm.trans e2)).2
    omega
  · intro p hp q hq hpq
    subst hpq
    simp only [gridOps, rightOps, bottomOps, List.mem_append, List.mem_flatMap, List.mem_map, List.mem_range,
      List.mem_cons, List.not_mem_nil, or_false] at hp hq
    obtain ⟨c', h4, h5⟩ := hq
    have e2 : p.1 = (row - 1) * col + c' := by rw [← h5]
    rcases hp with ⟨r, h1, c, h2, h3⟩ | ⟨r, h1, h3⟩
    · have e1 : p.1 = r * col + c := by rcases h3 with rfl | rfl <;> rfl
      have := (cell_unique (by omega) (by omega) (e1.symm.trans e2)).1
      omega
    · have e1 : p.1 = r * col + (col - 1) := by rw [← h3]; simp only; omega
      have := (cell_unique (by omega) (by omega) (e1.symm.trans e2)).1
      omega

/-- **C60** `makeCheckerboard`: cell `(r, c)` is vertex `r * col + c`, and two cells are joined exactly if they are
neighbours in a row or in a column (no wrapping). -/
theorem c60_checkerboard (row col : ℕ) (hr : 1 < row) (hc : 1 < col) (old : Edges) :
    Simple (row * col) (makeCheckerboard row col old) ∧
    ∀ r c r' c' (h1 : r < row) (h2 : c < col) (h3 : r' < row) (h4 : c' < col),
      (graphOf (row * col) (makeCheckerboard row col old)).Adj ⟨r * col + c, cell_lt h1 h2⟩
        ⟨r' * col + c', cell_lt h3 h4⟩ ↔
      (r = r' ∧ (c + 1 = c' ∨ c' + 1 = c)) ∨ (c = c' ∧ (r + 1 = r' ∨ r' + 1 = r)) := by
  rw [checkerboard_ops row col hr hc]
  obtain ⟨a1, a2⟩ := pushAll_empty (n := row * col) _ (nodup_gridOps row col hc) (by
    intro p hp
    rw [mem_gridOps row col hr hc] at hp
    obtain ⟨r, c, h1, h2, ⟨h3, rfl⟩ | ⟨h3, rfl⟩⟩ := hp
    · exact ⟨by simp only; omega, cell_lt h1 h3⟩
    · refine ⟨?_, cell_lt h3 h2⟩
      have : (r + 1) * col = r * col + col := by ring
      simp only; omega)
  refine ⟨a1, fun r c r' c' h1 h2 h3 h4 => ?_⟩
  rw [a2]
  simp only [mem_gridOps row col hr hc]
  have key : ∀ {r c r' c' : ℕ}, r < row → c < col → r' < row → c' < col →
      (GridPair row col (r * col + c, r' * col + c') ↔ (r = r' ∧ c + 1 = c') ∨ (c = c' ∧ r + 1 = r')) := by
    intro r c r' c' h1 h2 h3 h4
    constructor
    · rintro ⟨x, y, k1, k2, ⟨k3, k4⟩ | ⟨k3, k4⟩⟩
      · obtain ⟨e1, e2⟩ := Prod.ext_iff.1 k4
        obtain ⟨rfl, rfl⟩ := cell_unique h2 k2 e1
        obtain ⟨rfl, rfl⟩ := cell_unique h4 k3 e2
        exact Or.inl ⟨rfl, rfl⟩
      · obtain ⟨e1, e2⟩ := Prod.ext_iff.1 k4
        obtain ⟨rfl, rfl⟩ := cell_unique h2 k2 e1
        obtain ⟨rfl, rfl⟩ := cell_unique h4 k2 e2
        exact Or.inr ⟨rfl, rfl⟩
    · rintro (⟨rfl, rfl⟩ | ⟨rfl, rfl⟩)
      · exact ⟨r, c, h1, h2, Or.inl ⟨h4, rfl⟩⟩
      · exact ⟨r, c, h1, h2, Or.inr ⟨h3, rfl⟩⟩
  rw [key h1 h2 h3 h4, key h3 h4 h1 h2]
  omega

example : makeCheckerboard 2 3 [] = [[1, 3], [2, 4], [5], [4], [5], []] := by decide +kernel

/-! ### Petersen graphs -/

/-- the fifteen pairs of one Petersen graph -/
def petersenOps : List (ℕ × ℕ) :=
  [(0, 1), (1, 2), (2, 3), (3, 4), (0, 4), (0, 5), (1, 6), (2, 7), (3, 8), (4, 9),
   (5, 7), (6, 8), (7, 9), (5, 8), (6, 9)]

/-- the same, starting at a vertex -/
def petersenAt (s : ℕ) : List (ℕ × ℕ) := petersenOps.map fun p => (s + p.1, s + p.2)

theorem petersenSub_ops (s : ℕ) (E : Edges) : makePetersenSubGraph s E = pushAll E (petersenAt s) := by
  simp [makePetersenSubGraph, pushAll, petersenAt, petersenOps, List.range_succ, add_assoc]

/-- Specification: the Petersen graph is the graph of the 2-subsets of a 5-set, joined if disjoint. -/
def petersenLabel : Fin 10 → Finset (Fin 5) :=
  ![{0, 1}, {2, 3}, {0, 4}, {1, 2}, {3, 4}, {2, 4}, {1, 4}, {1, 3}, {0, 3}, {0, 2}]

theorem petersenLabel_bij : Function.Injective petersenLabel ∧
    ∀ s : Finset (Fin 5), s.card = 2 ↔ ∃ i, petersenLabel i = s := by
  constructor
  · decide
  · decide +kernel

theorem petersenOps_adj : ∀ a b : Fin 10, (((a : ℕ), (b : ℕ)) ∈ petersenOps ∨ ((b : ℕ), (a : ℕ)) ∈ petersenOps) ↔
    Disjoint (petersenLabel a) (petersenLabel b) := by
  decide +kernel

theorem petersenOps_bound : ∀ p ∈ petersenOps, p.1 < p.2 ∧ p.2 < 10 := by decide

/-- **C60** `makePetersenFunGraph num`: `num` Petersen graphs side by side.  Vertex `10 i + a` is the `a`-th vertex of
the `i`-th copy; copies are not joined, and inside a copy two vertices are joined exactly if the corresponding 2-subsets
of `{0,…,4}` are disjoint (`petersenLabel` is a bijection onto the 2-subsets: `petersenLabel_bij`).
`makePetersenGraph` is the case `num = 1`. -/
theorem c60_petersen (num : ℕ) :
    Simple (10 * num) (makePetersenFunGraph num) ∧
    ∀ (i j : ℕ) (a b : Fin 10) (hi : i < num) (hj : j < num),
      (graphOf (10 * num) (makePetersenFunGraph num)).Adj
        ⟨10 * i + a, by have := a.2; omega⟩ ⟨10 * j + b, by have := b.2; omega⟩ ↔
      i = j ∧ Disjoint (petersenLabel a) (petersenLabel b) := by
  have hE : makePetersenFunGraph num =
      pushAll (emptyEdges (10 * num)) ((List.range num).flatMap fun i => petersenAt (i * 10)) := by
    unfold makePetersenFunGraph
    simp only [petersenSub_ops, pushAll_flatMap]
  have hmem : ∀ u v, (u, v) ∈ ((List.range num).flatMap fun i => petersenAt (i * 10)) ↔
      ∃ i < num, ∃ p ∈ petersenOps, u = i * 10 + p.1 ∧ v = i * 10 + p.2 := by
    intro u v
    simp only [petersenAt, List.mem_flatMap, List.mem_range, List.mem_map]
    constructor
    · rintro ⟨i, hi, p, hp, h⟩
      obtain ⟨rfl, rfl⟩ := Prod.mk.inj h
      exact ⟨i, hi, p, hp, rfl, rfl⟩
    · rintro ⟨i, hi, p, hp, rfl, rfl⟩
      exact ⟨i, hi, p, hp, rfl⟩
  rw [hE]
  obtain ⟨a1, a2⟩ := pushAll_empty (n := 10 * num) ((List.range num).flatMap fun i => petersenAt (i * 10)) (by
      rw [List.nodup_flatMap]
      refine ⟨fun i _ => ?_, ?_⟩
      · apply List.Nodup.map
        · intro p q h
          obtain ⟨h1, h2⟩ := Prod.mk.inj h
          exact Prod.ext (by omega) (by omega)
        · decide
      · apply List.nodup_range.pairwise_of_forall_ne
        intro i _ j _ hne
        simp only [Function.onFun, List.disjoint_left, petersenAt, List.mem_map]
        rintro x ⟨p, hp, rfl⟩ ⟨q, hq, h⟩
        have h1 := (Prod.mk.inj h).1
        have := petersenOps_bound p hp
        have := petersenOps_bound q hq
        exact hne (by omega)) (by
    rintro ⟨u, v⟩ hp
    obtain ⟨i, hi, p, hp', rfl, rfl⟩ := (hmem u v).1 hp
    have := petersenOps_bound p hp'
    simp only
    omega)
  refine ⟨a1, fun i j a b hi hj => ?_⟩
  rw [a2, ← petersenOps_adj]
  simp only [hmem]
  have key : ∀ {i j : ℕ} {a b : Fin 10}, i < num → ((∃ k < num, ∃ p ∈ petersenOps,
      10 * i + (a : ℕ) = k * 10 + p.1 ∧ 10 * j + (b : ℕ) = k * 10 + p.2) ↔
      i = j ∧ ((a : ℕ), (b : ℕ)) ∈ petersenOps) := by
    intro i j a b hi
    constructor
    · rintro ⟨k, hk, p, hp, h1, h2⟩
      have := petersenOps_bound p hp
      have := a.2
      have := b.2
      refine ⟨by omega, ?_⟩
      have e1 : (a : ℕ) = p.1 := by omega
      have e2 : (b : ℕ) = p.2 := by omega
      rw [e1, e2]; exact hp
    · rintro ⟨rfl, h⟩
      exact ⟨i, hi, _, h, by simp only; omega, by simp only; omega⟩
  rw [key hi, key hj]
  constructor
  · rintro (⟨rfl, h⟩ | ⟨rfl, h⟩)
    · exact ⟨rfl, Or.inl h⟩
    · exact ⟨rfl, Or.inr h⟩
  · rintro ⟨rfl, h | h⟩
    · exact Or.inl ⟨rfl, h⟩
    · exact Or.inr ⟨rfl, h⟩

/-! ### binomial coefficients -/

theorem top_prod (n k : ℕ) (h : k ≤ n) :
    (List.range k).foldl (fun (p : ℤ) (i : ℕ) => p * ((n : ℤ) - (i : ℤ))) 1 = (n.descFactorial k : ℤ) := by
  induction k with
  | zero => simp
  | succ k ih =>
    rw [List.range_succ, List.foldl_append, ih (by omega), Nat.descFactorial_succ]
    simp only [List.foldl_cons, List.foldl_nil]
    push_cast [Nat.cast_sub (by omega : k ≤ n)]
    ring

theorem bottom_prod (k : ℕ) :
    (List.range k).foldl (fun (p : ℤ) (i : ℕ) => p * ((i : ℤ) + 1)) 1 = (k.factorial : ℤ) := by
  induction k with
  | zero => simp
  | succ k ih =>
    rw [List.range_succ, List.foldl_append, ih, Nat.factorial_succ]
    simp only [List.foldl_cons, List.foldl_nil]
    push_cast
    ring

/-- **C60** `nchoosek` is the binomial coefficient for all `0 ≤ k ≤ n`, and `-1` for `n < k`. -/
theorem c60_nchoosek (n k : ℕ) : nchoosek n k = if n < k then -1 else (n.choose k : ℤ) := by
  unfold nchoosek
  by_cases h : n < k
  · rw [if_pos (by exact_mod_cast h), if_pos h]
  · rw [if_neg (by exact_mod_cast h), if_neg h]
    simp only [Int.toNat_natCast]
    rw [top_prod n k (by omega), bottom_prod, Nat.descFactorial_eq_factorial_mul_choose]
    have hf : ((k.factorial : ℤ) : ℚ) ≠ 0 := by exact_mod_cast k.factorial_ne_zero
    have : (((k.factorial * n.choose k : ℕ) : ℤ) : ℚ) / ((k.factorial : ℤ) : ℚ) = ((n.choose k : ℤ) : ℚ) := by
      field_simp
      push_cast; ring
    rw [this, Rat.num_intCast]

example : nchoosek 5 2 = 10 := by
  have := c60_nchoosek 5 2
  simpa [Nat.choose] using this

end Verif.Graph
