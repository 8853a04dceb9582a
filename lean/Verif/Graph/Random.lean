import Verif.Graph.Spec
import Mathlib.Tactic

/-!
Properties C38 and C59: the random graph generators.
-/

namespace Verif.Graph

/-! ### adding an edge -/

theorem getD_set (E : Edges) (i j : ℕ) (l : List ℕ) (hi : i < E.length) :
    (E.set i l).getD j [] = if j = i then l else E.getD j [] := by
  by_cases h : j = i
  · subst h; simp [List.getD_eq_getElem?_getD, hi]
  · simp [List.getD_eq_getElem?_getD, h, List.getElem?_set_ne (Ne.symm h)]

theorem simple_empty (n : ℕ) : Simple n (emptyEdges n) := by
  have h : ∀ u, (emptyEdges n).getD u [] = [] := by
    intro u
    simp only [emptyEdges, List.getD_eq_getElem?_getD, List.getElem?_replicate]
    split <;> rfl
  refine ⟨by simp [emptyEdges], fun u v huv => ?_, fun u => by rw [h]; exact List.nodup_nil⟩
  unfold Listed at huv; rw [h] at huv; cases huv

theorem graphOf_empty (n : ℕ) : graphOf n (emptyEdges n) = ⊥ := by
  ext u v
  have h : ∀ u, (emptyEdges n).getD u [] = [] := by
    intro u
    simp only [emptyEdges, List.getD_eq_getElem?_getD, List.getElem?_replicate]
    split <;> rfl
  simp only [graphOf, Listed, h, SimpleGraph.bot_adj]
  simp

/-- appending an unlisted pair -/
theorem append_spec {n : ℕ} {E : Edges} (h : Simple n E) {a b : ℕ} (hab : a < b) (hb : b < n)
    (hn : ¬ Listed E a b) :
    Simple n (E.set a (E.getD a [] ++ [b])) ∧
      ∀ u v, Listed (E.set a (E.getD a [] ++ [b])) u v ↔ Listed E u v ∨ (u = a ∧ v = b) := by
  have ha : a < E.length := by rw [h.length]; omega
  have key : ∀ u v, Listed (E.set a (E.getD a [] ++ [b])) u v ↔ Listed E u v ∨ (u = a ∧ v = b) := by
    intro u v
    unfold Listed
    rw [getD_set _ _ _ _ ha]
    by_cases hu : u = a
    · subst hu; simp
    · simp [hu]
  refine ⟨⟨by simp [h.length], ?_, ?_⟩, key⟩
  · intro u v huv
    rcases (key u v).1 huv with h1 | ⟨rfl, rfl⟩
    · exact h.order u v h1
    · exact ⟨hab, hb⟩
  · intro u
    rw [getD_set _ _ _ _ ha]
    by_cases hu : u = a
    · subst hu
      rw [if_pos rfl, List.nodup_append]
      refine ⟨h.nodup _, List.nodup_singleton _, ?_⟩
      intro x hx y hy hxy
      simp at hy; subst hy; subst hxy
      exact hn hx
    · rw [if_neg hu]; exact h.nodup u

theorem listed_not_both {n : ℕ} {E : Edges} (h : Simple n E) {u v : ℕ} (h1 : Listed E u v) (h2 : Listed E v u) :
    False := by
  have := (h.order _ _ h1).1
  have := (h.order _ _ h2).1
  omega

theorem addOrdered_spec {n : ℕ} {E : Edges} (h : Simple n E) {a b : ℕ} (hab : a < b) (hb : b < n) :
    ∃ r E', addOrdered E a b = some (r, E') ∧ Simple n E' ∧
      (r = true ↔ ¬ Listed E a b) ∧ ∀ u v, Listed E' u v ↔ Listed E u v ∨ (u = a ∧ v = b) := by
  have ha : a < E.length := by rw [h.length]; omega
  have hg : E[a]? = some (E.getD a []) := by
    simp [List.getD_eq_getElem?_getD, ha]
  unfold addOrdered
  rw [hg]
  simp only
  by_cases hm : b ∈ E.getD a []
  · rw [if_pos hm]
    refine ⟨false, E, rfl, h, ⟨by simp, fun hh => absurd hm hh⟩, fun u v => ⟨Or.inl, ?_⟩⟩
    rintro (h1 | ⟨rfl, rfl⟩)
    · exact h1
    · exact hm
  · rw [if_neg hm]
    obtain ⟨h1, h2⟩ := append_spec h hab hb hm
    exact ⟨true, _, rfl, h1, ⟨fun _ => hm, fun _ => rfl⟩, h2⟩

/-- `addEdgeInOrder` on two different vertices in range: never out of range, keeps the lists simple, adds the edge
to the graph, and reports whether it is new. -/
theorem addEdge_spec {n : ℕ} {E : Edges} (h : Simple n E) (u v : Fin n) (huv : u ≠ v) :
    ∃ r E', addEdgeInOrder E u v = some (r, E') ∧ Simple n E' ∧
      (r = true ↔ ¬ (graphOf n E).Adj u v) ∧ graphOf n E' = graphOf n E ⊔ SimpleGraph.edge u v := by
  have hne : (u : ℕ) ≠ v := fun hh => huv (Fin.ext hh)
  have key : ∀ E', ∀ a b : ℕ, ((a = u ∧ b = v) ∨ (a = v ∧ b = u)) →
      (∀ x y, Listed E' x y ↔ Listed E x y ∨ (x = a ∧ y = b)) →
      graphOf n E' = graphOf n E ⊔ SimpleGraph.edge u v := by
    intro E' a b hab hE
    ext x y
    simp only [graphOf, SimpleGraph.sup_adj, SimpleGraph.edge_adj, hE]
    constructor
    · rintro ⟨h1, (h2 | ⟨h2, h3⟩) | (h2 | ⟨h2, h3⟩)⟩
      · exact Or.inl ⟨h1, Or.inl h2⟩
      · right
        rcases hab with ⟨rfl, rfl⟩ | ⟨rfl, rfl⟩
        · exact ⟨Or.inl ⟨Fin.ext h2, Fin.ext h3⟩, h1⟩
        · exact ⟨Or.inr ⟨Fin.ext h2, Fin.ext h3⟩, h1⟩
      · exact Or.inl ⟨h1, Or.inr h2⟩
      · right
        rcases hab with ⟨rfl, rfl⟩ | ⟨rfl, rfl⟩
        · exact ⟨Or.inr ⟨Fin.ext h3, Fin.ext h2⟩, h1⟩
        · exact ⟨Or.inl ⟨Fin.ext h3, Fin.ext h2⟩, h1⟩
    · rintro (⟨h1, h2⟩ | ⟨h2, h1⟩)
      · exact ⟨h1, h2.imp Or.inl Or.inl⟩
      · refine ⟨h1, ?_⟩
        rcases hab with ⟨rfl, rfl⟩ | ⟨rfl, rfl⟩ <;> rcases h2 with ⟨rfl, rfl⟩ | ⟨rfl, rfl⟩ <;> simp
  unfold addEdgeInOrder
  by_cases hle : (u : ℕ) ≤ v
  · rw [if_pos hle]
    obtain ⟨r, E', h1, h2, h3, h4⟩ := addOrdered_spec h (lt_of_le_of_ne hle hne) v.2
    refine ⟨r, E', h1, h2, ?_, key E' u v (Or.inl ⟨rfl, rfl⟩) h4⟩
    rw [h3]
    have : ¬ Listed E v u := fun hh => absurd (h.order _ _ hh).1 (by omega)
    simp [graphOf, huv, this]
  · rw [if_neg hle]
    obtain ⟨r, E', h1, h2, h3, h4⟩ := addOrdered_spec h (by omega : (v : ℕ) < u) u.2
    refine ⟨r, E', h1, h2, ?_, key E' v u (Or.inr ⟨rfl, rfl⟩) h4⟩
    rw [h3]
    have : ¬ Listed E u v := fun hh => absurd (h.order _ _ hh).1 (by omega)
    simp [graphOf, huv, this]

theorem ncard_add_edge {n : ℕ} (G : SimpleGraph (Fin n)) (u v : Fin n) (huv : u ≠ v) (h : ¬ G.Adj u v) :
    (G ⊔ SimpleGraph.edge u v).edgeSet.ncard = G.edgeSet.ncard + 1 := by
  rw [SimpleGraph.edgeSet_sup, SimpleGraph.edgeSet_edge_of_ne huv, Set.union_singleton]
  exact Set.ncard_insert_of_notMem (by simpa using h) (Set.toFinite _)

theorem sup_edge_of_adj {n : ℕ} (G : SimpleGraph (Fin n)) (u v : Fin n) (h : G.Adj u v) :
    G ⊔ SimpleGraph.edge u v = G := by
  apply sup_eq_left.2
  intro x y hxy
  rw [SimpleGraph.edge_adj] at hxy
  rcases hxy.1 with ⟨rfl, rfl⟩ | ⟨rfl, rfl⟩
  · exact h
  · exact h.symm

/-! ### the loop that draws pairs -/

/-- the `g` vertices starting at `off` -/
def block (n g off : ℕ) : Set (Fin n) := {u | off ≤ (u : ℕ) ∧ (u : ℕ) < off + g}

/-- edges with both ends in `s` -/
def inner {n : ℕ} (G : SimpleGraph (Fin n)) (s : Set (Fin n)) : Set (Sym2 (Fin n)) :=
  {e | e ∈ G.edgeSet ∧ ∀ x ∈ e, x ∈ s}

theorem inner_add {n : ℕ} (G : SimpleGraph (Fin n)) (s : Set (Fin n)) (u v : Fin n) (huv : u ≠ v)
    (hu : u ∈ s) (hv : v ∈ s) (h : ¬ G.Adj u v) :
    (inner (G ⊔ SimpleGraph.edge u v) s).ncard = (inner G s).ncard + 1 := by
  have : inner (G ⊔ SimpleGraph.edge u v) s = insert s(u, v) (inner G s) := by
    ext e
    simp only [inner, SimpleGraph.edgeSet_sup, SimpleGraph.edgeSet_edge_of_ne huv, Set.union_singleton,
      Set.mem_insert_iff, Set.mem_ofPred_eq]
    constructor
    · rintro ⟨rfl | h1, h2⟩
      · exact Or.inl rfl
      · exact Or.inr ⟨h1, h2⟩
    · rintro (rfl | ⟨h1, h2⟩)
      · refine ⟨Or.inl rfl, fun x hx => ?_⟩
        rcases Sym2.mem_iff.1 hx with rfl | rfl
        · exact hu
        · exact hv
      · exact ⟨Or.inr h1, h2⟩
  rw [this]
  exact Set.ncard_insert_of_notMem (fun hh => h (by simpa using hh.1)) (Set.toFinite _)

/-- Invariant of the drawing loop.  With `g` vertices starting at `off`, from a simple graph: if it ends, the graph is
simple, contains the old one, has exactly the missing number of further edges, all of them between the `g`
vertices. -/
theorem fillLoop_spec (n g off m : ℕ) (hg : 0 < g) (hgo : g + off ≤ n) (cur : ℕ) (draws : List ℕ) (E : Edges)
    (h : Simple n E) :
    fillLoop g off m cur draws E ≠ .undefined ∧
    ∀ ds E', fillLoop g off m cur draws E = .done (ds, E') →
      Simple n E' ∧ graphOf n E ≤ graphOf n E' ∧
      (graphOf n E').edgeSet.ncard = (graphOf n E).edgeSet.ncard + (m - cur) ∧
      (inner (graphOf n E') (block n g off)).ncard = (inner (graphOf n E) (block n g off)).ncard + (m - cur) ∧
      ∀ u v, (graphOf n E').Adj u v → ¬ (graphOf n E).Adj u v → u ∈ block n g off ∧ v ∈ block n g off := by
  induction cur, draws, E using fillLoop.induct g off m with
  | case1 cur d1 d2 ds E hc v1 v2 hv ih =>
    have hv' : d1 % g + off = d2 % g + off := hv
    rw [fillLoop, if_pos hc]
    simp only [hv', if_true]
    exact ih h
  | case2 cur d1 d2 ds E hc v1 v2 hv hadd =>
    exfalso
    have h1 : v1 < n := by have := Nat.mod_lt d1 hg; show d1 % g + off < n; omega
    have h2 : v2 < n := by have := Nat.mod_lt d2 hg; show d2 % g + off < n; omega
    obtain ⟨r, E', h3, -⟩ := addEdge_spec h ⟨v1, h1⟩ ⟨v2, h2⟩ (fun hh => hv (congrArg Fin.val hh))
    rw [show addEdgeInOrder E v1 v2 = some (r, E') from h3] at hadd
    cases hadd
  | case3 cur d1 d2 ds E hc v1 v2 hv E' hadd ih =>
    have hv' : ¬ (d1 % g + off = d2 % g + off) := hv
    have h1 : v1 < n := by have := Nat.mod_lt d1 hg; show d1 % g + off < n; omega
    have h2 : v2 < n := by have := Nat.mod_lt d2 hg; show d2 % g + off < n; omega
    have hne : (⟨v1, h1⟩ : Fin n) ≠ ⟨v2, h2⟩ := fun hh => hv (congrArg Fin.val hh)
    obtain ⟨r, E2, h3, h4, h5, h6⟩ := addEdge_spec h ⟨v1, h1⟩ ⟨v2, h2⟩ hne
    rw [show addEdgeInOrder E v1 v2 = some (r, E2) from h3] at hadd
    obtain ⟨rfl, rfl⟩ : r = true ∧ E2 = E' := by simpa using hadd
    have hna := h5.1 rfl
    obtain ⟨i1, i2⟩ := ih h4
    have hrw : fillLoop g off m cur (d1 :: d2 :: ds) E = fillLoop g off m (cur + 1) ds E2 := by
      rw [fillLoop, if_pos hc]
      simp only [if_neg hv']
      rw [show addEdgeInOrder E (d1 % g + off) (d2 % g + off) = some (true, E2) from h3]
    rw [hrw]
    refine ⟨i1, fun ds' E' hd => ?_⟩
    obtain ⟨j1, j2, j3, j3', j4⟩ := i2 ds' E' hd
    refine ⟨j1, le_trans (by rw [h6]; exact le_sup_left) j2, ?_, ?_, ?_⟩
    · rw [j3, h6, ncard_add_edge _ _ _ hne hna]; omega
    · have b1 := Nat.mod_lt d1 hg
      have b2 := Nat.mod_lt d2 hg
      have m1 : (⟨v1, h1⟩ : Fin n) ∈ block n g off := ⟨Nat.le_add_left _ _, by show d1 % g + off < _; omega⟩
      have m2 : (⟨v2, h2⟩ : Fin n) ∈ block n g off := ⟨Nat.le_add_left _ _, by show d2 % g + off < _; omega⟩
      rw [j3', h6, inner_add _ _ _ _ hne m1 m2 hna]
      omega
    · intro u v huv hnuv
      by_cases hh : (graphOf n E2).Adj u v
      · rw [h6, SimpleGraph.sup_adj, SimpleGraph.edge_adj] at hh
        have b1 := Nat.mod_lt d1 hg
        have b2 := Nat.mod_lt d2 hg
        rcases hh with hh | ⟨⟨rfl, rfl⟩ | ⟨rfl, rfl⟩, -⟩
        · exact absurd hh hnuv
        · exact ⟨⟨Nat.le_add_left _ _, by show d1 % g + off < _; omega⟩,
            ⟨Nat.le_add_left _ _, by show d2 % g + off < _; omega⟩⟩
        · exact ⟨⟨Nat.le_add_left _ _, by show d2 % g + off < _; omega⟩,
            ⟨Nat.le_add_left _ _, by show d1 % g + off < _; omega⟩⟩
      · exact j4 u v huv hh
  | case4 cur d1 d2 ds E hc v1 v2 hv E' hadd ih =>
    have hv' : ¬ (d1 % g + off = d2 % g + off) := hv
    have h1 : v1 < n := by have := Nat.mod_lt d1 hg; show d1 % g + off < n; omega
    have h2 : v2 < n := by have := Nat.mod_lt d2 hg; show d2 % g + off < n; omega
    have hne : (⟨v1, h1⟩ : Fin n) ≠ ⟨v2, h2⟩ := fun hh => hv (congrArg Fin.val hh)
    obtain ⟨r, E2, h3, h4, h5, h6⟩ := addEdge_spec h ⟨v1, h1⟩ ⟨v2, h2⟩ hne
    rw [show addEdgeInOrder E v1 v2 = some (r, E2) from h3] at hadd
    obtain ⟨rfl, rfl⟩ : r = false ∧ E2 = E' := by simpa using hadd
    have ha : (graphOf n E).Adj ⟨v1, h1⟩ ⟨v2, h2⟩ := by
      by_contra hh; exact absurd (h5.2 hh) (by simp)
    rw [sup_edge_of_adj _ _ _ ha] at h6
    have hrw : fillLoop g off m cur (d1 :: d2 :: ds) E = fillLoop g off m cur ds E2 := by
      rw [fillLoop, if_pos hc]
      simp only [if_neg hv']
      rw [show addEdgeInOrder E (d1 % g + off) (d2 % g + off) = some (false, E2) from h3]
    rw [hrw, ← h6]
    exact ih h4
  | case5 cur d1 d2 ds E hc =>
    rw [fillLoop, if_neg hc]
    refine ⟨by simp, fun ds' E' hd => ?_⟩
    obtain ⟨rfl, rfl⟩ : d1 :: d2 :: ds = ds' ∧ E = E' := by simpa using hd
    refine ⟨h, le_rfl, by omega, by omega, fun u v h1 h2 => absurd h1 h2⟩
  | case6 cur ds E hne hc =>
    have : fillLoop g off m cur ds E = .more := by
      rw [fillLoop, if_pos hc]
      exact hne
    rw [this]
    exact ⟨by simp, by simp⟩
  | case7 cur ds E hne hc =>
    have : fillLoop g off m cur ds E = .done (ds, E) := by
      rw [fillLoop, if_neg hc]
      exact hne
    rw [this]
    refine ⟨by simp, fun ds' E' hd => ?_⟩
    obtain ⟨rfl, rfl⟩ : ds = ds' ∧ E = E' := by simpa using hd
    refine ⟨h, le_rfl, by omega, by omega, fun u v h1 h2 => absurd h1 h2⟩

/-- further random numbers are left unused -/
theorem fillLoop_extend (g off m cur : ℕ) (draws : List ℕ) (E : Edges) (ds : List ℕ) (E' : Edges)
    (h : fillLoop g off m cur draws E = .done (ds, E')) (ext : List ℕ) :
    fillLoop g off m cur (draws ++ ext) E = .done (ds ++ ext, E') := by
  induction cur, draws, E using fillLoop.induct g off m with
  | case1 cur d1 d2 rest E hc v1 v2 hv ih =>
    have hv' : d1 % g + off = d2 % g + off := hv
    simp only [List.cons_append]
    rw [fillLoop, if_pos hc] at h ⊢
    simp only [hv', if_true] at h ⊢
    exact ih h
  | case2 cur d1 d2 rest E hc v1 v2 hv hadd =>
    have hv' : ¬ (d1 % g + off = d2 % g + off) := hv
    have hadd' : addEdgeInOrder E (d1 % g + off) (d2 % g + off) = none := hadd
    rw [fillLoop, if_pos hc] at h
    simp only [if_neg hv', hadd'] at h
    cases h
  | case3 cur d1 d2 rest E hc v1 v2 hv E2 hadd ih =>
    have hv' : ¬ (d1 % g + off = d2 % g + off) := hv
    have hadd' : addEdgeInOrder E (d1 % g + off) (d2 % g + off) = some (true, E2) := hadd
    simp only [List.cons_append]
    rw [fillLoop, if_pos hc] at h ⊢
    simp only [if_neg hv', hadd'] at h ⊢
    exact ih h
  | case4 cur d1 d2 rest E hc v1 v2 hv E2 hadd ih =>
    have hv' : ¬ (d1 % g + off = d2 % g + off) := hv
    have hadd' : addEdgeInOrder E (d1 % g + off) (d2 % g + off) = some (false, E2) := hadd
    simp only [List.cons_append]
    rw [fillLoop, if_pos hc] at h ⊢
    simp only [if_neg hv', hadd'] at h ⊢
    exact ih h
  | case5 cur d1 d2 rest E hc =>
    simp only [List.cons_append]
    rw [fillLoop, if_neg hc] at h ⊢
    simp only [Out.done.injEq, Prod.mk.injEq] at h ⊢
    exact ⟨by rw [← h.1]; rfl, h.2⟩
  | case6 cur rest E hne hc =>
    have : fillLoop g off m cur rest E = .more := by
      rw [fillLoop, if_pos hc]
      exact hne
    rw [this] at h; cases h
  | case7 cur rest E hne hc =>
    have h1 : ∀ l, fillLoop g off m cur l E = .done (l, E) := by
      intro l
      match l with
      | [] => rw [fillLoop, if_neg hc]; simp
      | [d] => rw [fillLoop, if_neg hc]; simp
      | d1 :: d2 :: l => rw [fillLoop, if_neg hc]
    rw [h1] at h ⊢
    simp only [Out.done.injEq, Prod.mk.injEq] at h ⊢
    exact ⟨by rw [h.1], h.2⟩

/-! ### the spanning tree -/

/-- invariant of the spanning-tree loop -/
structure SpanInv (n k : ℕ) (unused used : List ℕ) (E : Edges) : Prop where
  simple : Simple n E
  usedLt : ∀ x ∈ used, x < n
  usedNe : used ≠ []
  kle : k ≤ unused.length
  fresh : (unused.take k).Nodup
  freshLt : ∀ x ∈ unused.take k, x < n
  cover : ∀ x, x < n → (x ∈ used ↔ x ∉ unused.take k)
  conn : ∀ u v : Fin n, (u : ℕ) ∈ used → (v : ℕ) ∈ used → (graphOf n E).Reachable u v
  inside : ∀ u v : Fin n, (graphOf n E).Adj u v → (u : ℕ) ∈ used
  count : (graphOf n E).edgeSet.ncard + k + 1 = n

theorem take_swap (unused : List ℕ) (k idx a b : ℕ) (hidx : idx < k + 1) (hk : k + 1 ≤ unused.length)
    (ha : unused[idx]? = some a) (hb : unused[k]? = some b) :
    (((unused.set idx b).set k a).take k ++ [a]).Perm (unused.take (k + 1)) := by
  have hk' : k < unused.length := by omega
  have hb' : unused[k] = b := by rw [List.getElem?_eq_getElem hk'] at hb; simpa using hb
  have hsplit : unused.take (k + 1) = unused.take k ++ [b] := by
    rw [List.take_add_one, hb]; rfl
  rw [List.take_set_of_le le_rfl]
  by_cases hik : idx = k
  · subst hik
    rw [List.take_set_of_le le_rfl, hsplit]
    have : a = b := by rw [ha] at hb; simpa using hb
    rw [this]
  · have hlt : idx < k := by omega
    have hidx' : idx < (unused.take k).length := by simp; omega
    have ha' : (unused.take k)[idx] = a := by
      have : idx < unused.length := by omega
      rw [List.getElem?_eq_getElem this] at ha
      rw [List.getElem_take]; simpa using ha
    rw [List.take_set, hsplit]
    generalize unused.take k = l at hidx' ha'
    rw [List.set_eq_take_append_cons_drop, if_pos hidx']
    conv_rhs => rw [← List.take_append_drop idx l, List.drop_eq_getElem_cons hidx', ha']
    simp only [List.append_assoc, List.cons_append]
    apply List.Perm.append_left
    rw [← List.cons_append, ← List.cons_append]
    refine (List.perm_append_comm).trans ?_
    simp only [List.cons_append, List.nil_append]
    apply List.Perm.cons
    exact (List.perm_append_comm (l₁ := [b])).trans (by rfl)

theorem spanLoop_spec (n : ℕ) : ∀ (k : ℕ) (draws unused used : List ℕ) (E : Edges), SpanInv n k unused used E →
    spanLoop k draws unused used E ≠ .undefined ∧
    (2 * k ≤ draws.length → ∃ E', spanLoop k draws unused used E = .done (draws.drop (2 * k), E')) ∧
    ∀ ds E', spanLoop k draws unused used E = .done (ds, E') →
      Simple n E' ∧ (graphOf n E').Preconnected ∧ (graphOf n E').edgeSet.ncard + 1 = n ∧ ds = draws.drop (2 * k) := by
  intro k
  induction k with
  | zero =>
    intro draws unused used E h
    simp only [spanLoop, Nat.mul_zero, List.drop_zero]
    refine ⟨by simp, fun _ => ⟨E, rfl⟩, fun ds E' hd => ?_⟩
    obtain ⟨rfl, rfl⟩ : draws = ds ∧ E = E' := by simpa using hd
    refine ⟨h.simple, fun u v => ?_, by have := h.count; omega, rfl⟩
    exact h.conn u v ((h.cover u u.2).2 (by simp)) ((h.cover v v.2).2 (by simp))
  | succ k ih =>
    intro draws unused used E h
    match draws with
    | [] => exact ⟨by simp [spanLoop], by intro hh; simp at hh, by intro ds E' hh; simp [spanLoop] at hh⟩
    | [d] =>
      exact ⟨by simp [spanLoop], by intro hh; simp at hh; omega, by intro ds E' hh; simp [spanLoop] at hh⟩
    | d1 :: d2 :: ds =>
      have hul : 0 < used.length := List.length_pos_of_ne_nil h.usedNe
      have hui : d1 % used.length < used.length := Nat.mod_lt _ hul
      have hidx : d2 % (k + 1) < k + 1 := Nat.mod_lt _ (Nat.succ_pos _)
      have hkle := h.kle
      obtain ⟨cu, hcu⟩ : ∃ cu, used[d1 % used.length]? = some cu := ⟨_, List.getElem?_eq_getElem hui⟩
      obtain ⟨a, ha⟩ : ∃ a, unused[d2 % (k + 1)]? = some a := ⟨_, List.getElem?_eq_getElem (by omega)⟩
      obtain ⟨b, hb⟩ : ∃ b, unused[k]? = some b := ⟨_, List.getElem?_eq_getElem (by omega)⟩
      have hcum : cu ∈ used := List.mem_of_getElem? hcu
      have hperm := take_swap unused k _ a b hidx hkle ha hb
      have ham : a ∈ unused.take (k + 1) := hperm.subset (by simp)
      have halt := h.freshLt a ham
      have hclt := h.usedLt cu hcum
      have hane : a ∉ used := fun hh => ((h.cover a halt).1 hh) ham
      have hne : (⟨cu, hclt⟩ : Fin n) ≠ ⟨a, halt⟩ := by
        intro hh; apply hane; rw [← show cu = a from congrArg Fin.val hh]; exact hcum
      obtain ⟨r, E2, h3, h4, h5, h6⟩ := addEdge_spec h.simple ⟨cu, hclt⟩ ⟨a, halt⟩ hne
      have hna : ¬ (graphOf n E).Adj ⟨cu, hclt⟩ ⟨a, halt⟩ := fun hh => hane (h.inside _ _ hh.symm)
      have hrw : spanLoop (k + 1) (d1 :: d2 :: ds) unused used E =
          spanLoop k ds ((unused.set (d2 % (k + 1)) b).set k a) (used ++ [a]) E2 := by
        rw [spanLoop]
        simp only [hcu, ha, hb]
        rw [show addEdgeInOrder E cu a = some (r, E2) from h3]
      have hnodup : (((unused.set (d2 % (k + 1)) b).set k a).take k ++ [a]).Nodup := hperm.nodup_iff.2 h.fresh
      rw [List.nodup_append] at hnodup
      have inv : SpanInv n k ((unused.set (d2 % (k + 1)) b).set k a) (used ++ [a]) E2 := by
        refine ⟨h4, ?_, by simp, by simp; omega, hnodup.1, ?_, ?_, ?_, ?_, ?_⟩
        · intro x hx
          rcases List.mem_append.1 hx with hx | hx
          · exact h.usedLt x hx
          · simp at hx; subst hx; exact halt
        · intro x hx
          exact h.freshLt x (hperm.subset (List.mem_append_left _ hx))
        · intro x hx
          have hiff : x ∈ unused.take (k + 1) ↔
              x ∈ ((unused.set (d2 % (k + 1)) b).set k a).take k ∨ x = a := by
            rw [← hperm.mem_iff]; simp
          rw [List.mem_append, List.mem_singleton, h.cover x hx, hiff]
          constructor
          · rintro (h1 | rfl) h2
            · exact h1 (Or.inl h2)
            · exact hnodup.2.2 x h2 x (by simp) rfl
          · intro h1
            by_cases hxa : x = a
            · exact Or.inr hxa
            · exact Or.inl (by rintro (h2 | h2); exacts [h1 h2, hxa h2])
        · have hle : graphOf n E ≤ graphOf n E2 := by rw [h6]; exact le_sup_left
          have hca : (graphOf n E2).Adj ⟨cu, hclt⟩ ⟨a, halt⟩ := by
            rw [h6, SimpleGraph.sup_adj, SimpleGraph.edge_adj]
            exact Or.inr ⟨Or.inl ⟨rfl, rfl⟩, hne⟩
          have hto : ∀ u : Fin n, (u : ℕ) ∈ used ++ [a] → (graphOf n E2).Reachable u ⟨cu, hclt⟩ := by
            intro u hu
            rcases List.mem_append.1 hu with hu | hu
            · exact (h.conn u ⟨cu, hclt⟩ hu hcum).mono hle
            · have : u = ⟨a, halt⟩ := Fin.ext (by simpa using hu)
              rw [this]; exact hca.symm.reachable
          intro u v hu hv
          exact (hto u hu).trans (hto v hv).symm
        · intro u v huv
          rw [h6, SimpleGraph.sup_adj, SimpleGraph.edge_adj] at huv
          rcases huv with huv | ⟨⟨rfl, rfl⟩ | ⟨rfl, rfl⟩, -⟩
          · exact List.mem_append_left _ (h.inside u v huv)
          · exact List.mem_append_left _ hcum
          · simp
        · have := h.count
          rw [h6, ncard_add_edge _ _ _ hne hna]
          omega
      obtain ⟨i1, i2, i3⟩ := ih ds _ _ E2 inv
      rw [hrw]
      have hdrop : (d1 :: d2 :: ds).drop (2 * (k + 1)) = ds.drop (2 * k) := by
        rw [show 2 * (k + 1) = 2 * k + 1 + 1 by ring]; rfl
      rw [hdrop]
      exact ⟨i1, fun hlen => i2 (by simp at hlen; omega), i3⟩

/-- more random numbers than needed do not change the tree -/
theorem spanLoop_extend : ∀ (k : ℕ) (draws unused used : List ℕ) (E : Edges) (ds : List ℕ) (E' : Edges),
    spanLoop k draws unused used E = .done (ds, E') → ∀ ext,
      spanLoop k (draws ++ ext) unused used E = .done (ds ++ ext, E') := by
  intro k
  induction k with
  | zero =>
    intro draws unused used E ds E' h ext
    simp only [spanLoop, Out.done.injEq, Prod.mk.injEq] at h ⊢
    exact ⟨by rw [h.1], h.2⟩
  | succ k ih =>
    intro draws unused used E ds E' h ext
    match draws with
    | [] => simp [spanLoop] at h
    | [d] => simp [spanLoop] at h
    | d1 :: d2 :: rest =>
      simp only [List.cons_append]
      rw [spanLoop] at h ⊢
      split at h
      · cases h
      · rename_i cu hcu
        dsimp only at h ⊢
        split at h
        · rename_i a b ha hb
          split at h
          · cases h
          · rename_i r E2 hE2
            exact ih rest _ _ _ _ _ h ext
        · cases h

theorem spanInv_init (n : ℕ) (hn : 0 < n) :
    SpanInv n (n - 1) (List.range (n - 1)) [n - 1] (emptyEdges n) := by
  have ht : (List.range (n - 1)).take (n - 1) = List.range (n - 1) := by
    apply List.take_of_length_le; simp
  refine ⟨simple_empty n, ?_, by simp, by simp, ?_, ?_, ?_, ?_, ?_, ?_⟩
  · intro x hx; simp at hx; omega
  · rw [ht]; exact List.nodup_range
  · rw [ht]; intro x hx; have := List.mem_range.1 hx; omega
  · intro x hx; rw [ht, List.mem_range, List.mem_singleton]; omega
  · intro u v hu hv
    simp at hu hv
    have : u = v := Fin.ext (by omega)
    rw [this]
  · intro u v huv
    rw [graphOf_empty] at huv
    exact absurd huv (by simp)
  · rw [graphOf_empty]; simp; omega

/-- **C38** the spanning tree: for every size `n ≥ 1` and all random numbers, if at least `2(n-1)` of them are
available the construction ends, and the result is a tree on all `n` vertices, stored without redundancy. -/
theorem c38_spanning_tree (n : ℕ) (hn : 0 < n) (draws : List ℕ) (hd : 2 * (n - 1) ≤ draws.length) :
    ∃ E, makeRandomSpanningTree n draws (emptyEdges n) = .done (draws.drop (2 * (n - 1)), E) ∧
      Simple n E ∧ (graphOf n E).IsTree := by
  obtain ⟨-, h2, h3⟩ := spanLoop_spec n (n - 1) draws _ _ _ (spanInv_init n hn)
  obtain ⟨E, hE⟩ := h2 hd
  obtain ⟨h4, h5, h6, -⟩ := h3 _ _ hE
  refine ⟨E, hE, h4, ?_⟩
  have : Nonempty (Fin n) := ⟨⟨0, hn⟩⟩
  rw [SimpleGraph.isTree_iff_connected_and_card]
  refine ⟨⟨h5⟩, ?_⟩
  rw [Nat.card_coe_set_eq, Nat.card_eq_fintype_card, Fintype.card_fin]
  exact h6

/-! ### C38 -/

/-- sizes accepted by `makeRandomConnectedGraph` -/
def GoodSizes (size edgeCount : ℕ) : Prop :=
  2 < size ∧ size ≤ edgeCount + 1 ∧ edgeCount ≤ size.choose 2

theorem guard_false {size edgeCount : ℕ} (h : GoodSizes size edgeCount) :
    ¬ (size ≤ 2 ∨ size > edgeCount + 1 ∨ edgeCount > size * (size - 1) / 2) := by
  have h3 := h.2.2
  rw [Nat.choose_two_right] at h3
  have := h.1
  have := h.2.1
  omega

/-- **C38** For all accepted sizes and all random numbers, a result of the random graph generator is a connected
simple graph on `size` vertices with exactly `edgeCount` edges, each listed once, under its smaller end; and no
index is ever out of range. -/
theorem c38_connected (size edgeCount : ℕ) (h : GoodSizes size edgeCount) (draws : List ℕ) (old : Edges) :
    makeRandomConnectedGraph size edgeCount draws old ≠ .undefined ∧
    ∀ E, makeRandomConnectedGraph size edgeCount draws old = .done E →
      Simple size E ∧ (graphOf size E).Connected ∧ (graphOf size E).edgeSet.ncard = edgeCount := by
  have hs : 0 < size := by have := h.1; omega
  obtain ⟨a1, -, a3⟩ := spanLoop_spec size (size - 1) draws _ _ _ (spanInv_init size hs)
  unfold makeRandomConnectedGraph
  rw [if_neg (guard_false h)]
  have hm : makeRandomSpanningTree size draws (emptyEdges size) =
    spanLoop (size - 1) draws (List.range (size - 1)) [size - 1] (emptyEdges size) := rfl
  rw [hm]
  cases hc : spanLoop (size - 1) draws (List.range (size - 1)) [size - 1] (emptyEdges size) with
  | undefined => exact absurd hc a1
  | more => exact ⟨by simp, by simp⟩
  | done p =>
    obtain ⟨ds, E1⟩ := p
    obtain ⟨b1, b2, b3, -⟩ := a3 ds E1 hc
    obtain ⟨c1, c2⟩ := fillLoop_spec size size 0 edgeCount hs (by omega) (size - 1) ds E1 b1
    cases hf : fillLoop size 0 edgeCount (size - 1) ds E1 with
    | undefined => exact absurd hf c1
    | more => simp only [hf]; exact ⟨by simp, by simp⟩
    | done q =>
      obtain ⟨ds2, E2⟩ := q
      obtain ⟨d1, d2, d3, -, -⟩ := c2 ds2 E2 hf
      simp only [hf]
      refine ⟨by simp, fun E hE => ?_⟩
      obtain rfl : E2 = E := by simpa using hE
      have : Nonempty (Fin size) := ⟨⟨0, hs⟩⟩
      refine ⟨d1, ⟨b2.mono d2⟩, ?_⟩
      have := h.2.1
      omega

/-- other sizes leave the graph unchanged -/
theorem c38_rejected (size edgeCount : ℕ) (h : ¬ GoodSizes size edgeCount) (draws : List ℕ) (old : Edges) :
    makeRandomConnectedGraph size edgeCount draws old = .done old := by
  unfold makeRandomConnectedGraph
  rw [if_pos]
  unfold GoodSizes at h
  rw [Nat.choose_two_right] at h
  omega

theorem card_block (n g off : ℕ) (h : g + off ≤ n) : (block n g off).toFinite.toFinset.card = g := by
  have : (block n g off).toFinite.toFinset.card = (Finset.Ico off (off + g)).card := by
    apply Finset.card_bij (fun (u : Fin n) _ => (u : ℕ))
    · intro u hu; simpa [block] using hu
    · intro u _ v _ huv; exact Fin.ext huv
    · intro b hb
      have hb' := Finset.mem_Ico.1 hb
      exact ⟨⟨b, by omega⟩, by simpa [block] using hb', rfl⟩
  rw [this]; simp

/-- if fewer than all pairs of a block are edges, there is a pair to add -/
theorem exists_new_pair {n g off : ℕ} (hgo : g + off ≤ n) (G : SimpleGraph (Fin n))
    (h : (inner G (block n g off)).ncard < g.choose 2) :
    ∃ u ∈ block n g off, ∃ v ∈ block n g off, u ≠ v ∧ ¬ G.Adj u v := by
  classical
  by_contra hcon
  push Not at hcon
  have : g.choose 2 ≤ (inner G (block n g off)).ncard := by
    have hc := Finset.card_powersetCard 2 (block n g off).toFinite.toFinset
    rw [card_block n g off hgo] at hc
    rw [← hc, Set.ncard_eq_toFinset_card']
    apply Finset.card_le_card_of_surjOn (fun e : Sym2 (Fin n) => e.toFinset)
    intro t ht
    have ht' : t ∈ (block n g off).toFinite.toFinset.powersetCard 2 := by simpa using ht
    rw [Finset.mem_powersetCard] at ht'
    obtain ⟨x, y, hxy, rfl⟩ := Finset.card_eq_two.1 ht'.2
    have hx : x ∈ block n g off := by simpa using ht'.1 (show x ∈ ({x, y} : Finset (Fin n)) by simp)
    have hy : y ∈ block n g off := by simpa using ht'.1 (show y ∈ ({x, y} : Finset (Fin n)) by simp)
    refine ⟨s(x, y), ?_, ?_⟩
    · rw [Set.coe_toFinset]
      refine ⟨hcon x hx y hy hxy, fun z hz => ?_⟩
      rcases Sym2.mem_iff.1 hz with rfl | rfl
      · exact hx
      · exact hy
    · ext z; simp
  omega

/-- a block of `g` vertices has at most `g(g-1)/2` edges -/
theorem inner_le {n g off : ℕ} (hgo : g + off ≤ n) (G : SimpleGraph (Fin n)) :
    (inner G (block n g off)).ncard ≤ g.choose 2 := by
  classical
  have hc := Finset.card_powersetCard 2 (block n g off).toFinite.toFinset
  rw [card_block n g off hgo] at hc
  rw [← hc, Set.ncard_eq_toFinset_card']
  apply Finset.card_le_card_of_injOn (fun e : Sym2 (Fin n) => e.toFinset)
  · intro e he
    have he' : e ∈ inner G (block n g off) := by simpa using he
    have hp : e.toFinset ∈ (block n g off).toFinite.toFinset.powersetCard 2 := by
      rw [Finset.mem_powersetCard]
      refine ⟨fun x hx => by simpa using he'.2 x (by simpa using hx), ?_⟩
      exact Sym2.card_toFinset_of_not_isDiag e (G.not_isDiag_of_mem_edgeSet he'.1)
    exact hp
  · intro e1 _ e2 _ he
    apply Sym2.ext
    intro x
    have := congrArg (fun t => x ∈ t) he
    simpa using this

/-- from every state the drawing loop can still end, provided there are enough pairs -/
theorem fillLoop_can_end (n g off m : ℕ) (hgo : g + off ≤ n) :
    ∀ (c cur : ℕ) (E : Edges), m - cur = c → Simple n E →
      (inner (graphOf n E) (block n g off)).ncard + (m - cur) ≤ g.choose 2 →
      ∃ ds E', fillLoop g off m cur ds E = .done ([], E') := by
  intro c
  induction c with
  | zero =>
    intro cur E hc _ _
    refine ⟨[], E, ?_⟩
    rw [fillLoop, if_neg (by omega)]
    simp
  | succ c ih =>
    intro cur E hc h hle
    obtain ⟨u, hu, v, hv, huv, hna⟩ := exists_new_pair hgo (graphOf n E) (by omega)
    obtain ⟨r, E2, h3, h4, h5, h6⟩ := addEdge_spec h u v huv
    have hr : r = true := h5.2 hna
    subst hr
    obtain ⟨ds, E', hd⟩ := ih (cur + 1) E2 (by omega) h4
      (by rw [h6, inner_add _ _ _ _ huv hu hv hna]; omega)
    have hu1 := hu.1
    have hu2 := hu.2
    have hv1 := hv.1
    have hv2 := hv.2
    refine ⟨((u : ℕ) - off) :: ((v : ℕ) - off) :: ds, E', ?_⟩
    rw [fillLoop, if_pos (by omega)]
    have e1 : ((u : ℕ) - off) % g + off = u := by
      rw [Nat.mod_eq_of_lt (by omega)]; omega
    have e2 : ((v : ℕ) - off) % g + off = v := by
      rw [Nat.mod_eq_of_lt (by omega)]; omega
    simp only [e1, e2]
    rw [if_neg (fun hh => huv (Fin.ext hh)), h3]
    exact hd

/-- after any random numbers, the loop has ended or its state can be continued -/
theorem fillLoop_append (n g off m : ℕ) (hg : 0 < g) (hgo : g + off ≤ n) (cur : ℕ) (draws : List ℕ) (E : Edges)
    (h : Simple n E) (hle : (inner (graphOf n E) (block n g off)).ncard + (m - cur) ≤ g.choose 2) :
    ∃ ext ds E', fillLoop g off m cur (draws ++ ext) E = .done (ds, E') := by
  induction cur, draws, E using fillLoop.induct g off m with
  | case1 cur d1 d2 ds E hc v1 v2 hv ih =>
    have hv' : d1 % g + off = d2 % g + off := hv
    obtain ⟨ext, ds', E', hd⟩ := ih h hle
    refine ⟨ext, ds', E', ?_⟩
    simp only [List.cons_append]
    rw [fillLoop, if_pos hc]
    simp only [hv', if_true]
    exact hd
  | case2 cur d1 d2 ds E hc v1 v2 hv hadd =>
    exfalso
    have h1 : v1 < n := by have := Nat.mod_lt d1 hg; show d1 % g + off < n; omega
    have h2 : v2 < n := by have := Nat.mod_lt d2 hg; show d2 % g + off < n; omega
    obtain ⟨r, E', h3, -⟩ := addEdge_spec h ⟨v1, h1⟩ ⟨v2, h2⟩ (fun hh => hv (congrArg Fin.val hh))
    rw [show addEdgeInOrder E v1 v2 = some (r, E') from h3] at hadd
    cases hadd
  | case3 cur d1 d2 ds E hc v1 v2 hv E' hadd ih =>
    have hv' : ¬ (d1 % g + off = d2 % g + off) := hv
    have b1 := Nat.mod_lt d1 hg
    have b2 := Nat.mod_lt d2 hg
    have h1 : v1 < n := by show d1 % g + off < n; omega
    have h2 : v2 < n := by show d2 % g + off < n; omega
    have hne : (⟨v1, h1⟩ : Fin n) ≠ ⟨v2, h2⟩ := fun hh => hv (congrArg Fin.val hh)
    obtain ⟨r, E2, h3, h4, h5, h6⟩ := addEdge_spec h ⟨v1, h1⟩ ⟨v2, h2⟩ hne
    rw [show addEdgeInOrder E v1 v2 = some (r, E2) from h3] at hadd
    obtain ⟨rfl, rfl⟩ : r = true ∧ E2 = E' := by simpa using hadd
    have hna := h5.1 rfl
    have m1 : (⟨v1, h1⟩ : Fin n) ∈ block n g off := ⟨Nat.le_add_left _ _, by show d1 % g + off < _; omega⟩
    have m2 : (⟨v2, h2⟩ : Fin n) ∈ block n g off := ⟨Nat.le_add_left _ _, by show d2 % g + off < _; omega⟩
    obtain ⟨ext, ds', E', hd⟩ := ih h4 (by rw [h6, inner_add _ _ _ _ hne m1 m2 hna]; omega)
    refine ⟨ext, ds', E', ?_⟩
    simp only [List.cons_append]
    rw [fillLoop, if_pos hc]
    simp only [if_neg hv']
    rw [show addEdgeInOrder E (d1 % g + off) (d2 % g + off) = some (true, E2) from h3]
    exact hd
  | case4 cur d1 d2 ds E hc v1 v2 hv E' hadd ih =>
    have hv' : ¬ (d1 % g + off = d2 % g + off) := hv
    have h1 : v1 < n := by have := Nat.mod_lt d1 hg; show d1 % g + off < n; omega
    have h2 : v2 < n := by have := Nat.mod_lt d2 hg; show d2 % g + off < n; omega
    have hne : (⟨v1, h1⟩ : Fin n) ≠ ⟨v2, h2⟩ := fun hh => hv (congrArg Fin.val hh)
    obtain ⟨r, E2, h3, h4, h5, h6⟩ := addEdge_spec h ⟨v1, h1⟩ ⟨v2, h2⟩ hne
    rw [show addEdgeInOrder E v1 v2 = some (r, E2) from h3] at hadd
    obtain ⟨rfl, rfl⟩ : r = false ∧ E2 = E' := by simpa using hadd
    have ha : (graphOf n E).Adj ⟨v1, h1⟩ ⟨v2, h2⟩ := by
      by_contra hh; exact absurd (h5.2 hh) (by simp)
    rw [sup_edge_of_adj _ _ _ ha] at h6
    obtain ⟨ext, ds', E', hd⟩ := ih h4 (by rw [h6]; exact hle)
    refine ⟨ext, ds', E', ?_⟩
    simp only [List.cons_append]
    rw [fillLoop, if_pos hc]
    simp only [if_neg hv']
    rw [show addEdgeInOrder E (d1 % g + off) (d2 % g + off) = some (false, E2) from h3]
    exact hd
  | case5 cur d1 d2 ds E hc =>
    refine ⟨[], d1 :: d2 :: ds, E, ?_⟩
    simp only [List.append_nil]
    rw [fillLoop, if_neg hc]
  | case6 cur ds E hne hc =>
    obtain ⟨ext, E', hd⟩ := fillLoop_can_end n g off m hgo _ cur E rfl h hle
    match ds with
    | [] => exact ⟨ext, [], E', hd⟩
    | [d] =>
      refine ⟨d :: ext, [], E', ?_⟩
      simp only [List.cons_append, List.nil_append]
      rw [fillLoop, if_pos hc]
      simp only [if_true]
      exact hd
    | d1 :: d2 :: ds => exact absurd rfl (hne d1 d2 ds)
  | case7 cur ds E hne hc =>
    refine ⟨[], ds, E, ?_⟩
    rw [List.append_nil, fillLoop, if_neg hc]
    exact hne

/-- **C38** The generator can always still end: after any random numbers drawn so far there is a continuation for which
it returns.  (So it ends with probability one for a fair generator, and it never gets stuck.) -/
theorem c38_can_end (size edgeCount : ℕ) (h : GoodSizes size edgeCount) (draws : List ℕ) (old : Edges) :
    ∃ ext E, makeRandomConnectedGraph size edgeCount (draws ++ ext) old = .done E := by
  have hs : 0 < size := by have := h.1; omega
  set pad : List ℕ := List.replicate (2 * (size - 1)) 0
  obtain ⟨-, a2, a3⟩ := spanLoop_spec size (size - 1) (draws ++ pad) _ _ _ (spanInv_init size hs)
  obtain ⟨E1, hE1⟩ := a2 (by simp [pad])
  obtain ⟨b1, b2, b3, -⟩ := a3 _ _ hE1
  have hle : (inner (graphOf size E1) (block size size 0)).ncard ≤ (graphOf size E1).edgeSet.ncard :=
    Set.ncard_le_ncard (fun e he => he.1) (Set.toFinite _)
  obtain ⟨ext, ds, E', hd⟩ := fillLoop_append size size 0 edgeCount hs (by omega) (size - 1)
    ((draws ++ pad).drop (2 * (size - 1))) E1 b1 (by have := h.2.2; have := h.2.1; omega)
  refine ⟨pad ++ ext, E', ?_⟩
  have hmono := spanLoop_extend (size - 1) (draws ++ pad) _ _ _ _ _ hE1 ext
  unfold makeRandomConnectedGraph makeRandomSpanningTree
  rw [if_neg (guard_false h), ← List.append_assoc, hmono]
  simp only [hd]

example : GoodSizes 4 5 := by unfold GoodSizes; decide
example : makeRandomConnectedGraph 4 5 [7, 2, 1, 1, 0, 0, 2, 2, 0, 1, 3, 2, 1, 0, 0, 2, 5] [] =
    .done [[3, 1, 2], [2], [3], []] := by decide +kernel

/-! ### C59: the generator of disconnected graphs -/

/-- sizes for which both halves can hold their share of the edges -/
def Fits (size edgeCount : ℕ) : Prop :=
  (edgeCount + 1) / 2 ≤ ((size + 1) / 2).choose 2 ∧ edgeCount / 2 ≤ (size / 2).choose 2

theorem inner_bot {n : ℕ} (s : Set (Fin n)) : (inner (⊥ : SimpleGraph (Fin n)) s).ncard = 0 := by
  simp [inner]

/-- what the two loops of `makeRandomDisconnectedGraph` leave -/
theorem disconnected_spec (size edgeCount : ℕ) (hs : 4 ≤ size) (draws : List ℕ) (old : Edges) :
    makeRandomDisconnectedGraph size edgeCount draws old ≠ .undefined ∧
    ∀ E, makeRandomDisconnectedGraph size edgeCount draws old = .done E →
      Fits size edgeCount ∧ Simple size E ∧ (graphOf size E).edgeSet.ncard = edgeCount ∧
      ∀ u v : Fin size, (graphOf size E).Adj u v → ((u : ℕ) < (size + 1) / 2 ↔ (v : ℕ) < (size + 1) / 2) := by
  unfold makeRandomDisconnectedGraph
  rw [if_neg (by omega)]
  simp only
  obtain ⟨a1, a2⟩ := fillLoop_spec size ((size + 1) / 2) 0 ((edgeCount + 1) / 2) (by omega) (by omega) 0 draws
    (emptyEdges size) (simple_empty size)
  cases hc : fillLoop ((size + 1) / 2) 0 ((edgeCount + 1) / 2) 0 draws (emptyEdges size) with
  | undefined => exact absurd hc a1
  | more => exact ⟨by simp, by simp⟩
  | done p =>
    obtain ⟨ds, E1⟩ := p
    obtain ⟨b1, b2, b3, b4, b5⟩ := a2 ds E1 hc
    rw [graphOf_empty] at b3 b4 b5
    obtain ⟨c1, c2⟩ := fillLoop_spec size (size / 2) ((size + 1) / 2) (edgeCount / 2) (by omega) (by omega) 0 ds E1 b1
    simp only
    cases hf : fillLoop (size / 2) ((size + 1) / 2) (edgeCount / 2) 0 ds E1 with
    | undefined => exact absurd hf c1
    | more => simp only; exact ⟨by simp, by simp⟩
    | done q =>
      obtain ⟨ds2, E2⟩ := q
      obtain ⟨d1, d2, d3, d4, d5⟩ := c2 ds2 E2 hf
      simp only
      refine ⟨by simp, fun E hE => ?_⟩
      obtain rfl : E2 = E := by simpa using hE
      have i1 := inner_le (show (size + 1) / 2 + 0 ≤ size by omega) (graphOf size E1)
      have i2 := inner_le (show size / 2 + (size + 1) / 2 ≤ size by omega) (graphOf size E2)
      rw [inner_bot] at b4
      simp only [SimpleGraph.edgeSet_bot, Set.ncard_empty] at b3
      refine ⟨⟨by omega, by omega⟩, d1, by omega, fun u v huv => ?_⟩
      by_cases h1 : (graphOf size E1).Adj u v
      · obtain ⟨⟨-, e1⟩, ⟨-, e2⟩⟩ := b5 u v h1 (by simp)
        omega
      · obtain ⟨⟨e1, -⟩, ⟨e2, -⟩⟩ := d5 u v huv h1
        omega

/-- **C59** A result is a simple graph with `edgeCount` edges, and it is not connected: no edge joins the first half
of the vertices to the second. -/
theorem c59_disconnected (size edgeCount : ℕ) (hs : 4 ≤ size) (draws : List ℕ) (old E : Edges)
    (h : makeRandomDisconnectedGraph size edgeCount draws old = .done E) :
    Simple size E ∧ (graphOf size E).edgeSet.ncard = edgeCount ∧ ¬ (graphOf size E).Connected ∧
    ∀ u v : Fin size, (graphOf size E).Adj u v → ((u : ℕ) < (size + 1) / 2 ↔ (v : ℕ) < (size + 1) / 2) := by
  obtain ⟨-, h1, h2, h3⟩ := (disconnected_spec size edgeCount hs draws old).2 E h
  refine ⟨h1, h2, fun hc => ?_, h3⟩
  have hr : ∀ u v : Fin size, (graphOf size E).Reachable u v →
      ((u : ℕ) < (size + 1) / 2 ↔ (v : ℕ) < (size + 1) / 2) := by
    rintro u v ⟨w⟩
    induction w with
    | nil => rfl
    | cons hadj _ ih => exact (h3 _ _ hadj).trans ih
  have := hr ⟨0, by omega⟩ ⟨size - 1, by omega⟩ (hc.preconnected _ _)
  simp only at this
  omega

/-- **C59** If both halves can hold their share of the edges, the generator can always still end. -/
theorem c59_can_end_partial (size edgeCount : ℕ) (hs : 4 ≤ size) (hf : Fits size edgeCount) (draws : List ℕ) (old : Edges) :
    ∃ ext E, makeRandomDisconnectedGraph size edgeCount (draws ++ ext) old = .done E := by
  obtain ⟨ext1, ds1, E1, h1⟩ := fillLoop_append size ((size + 1) / 2) 0 ((edgeCount + 1) / 2) (by omega) (by omega) 0
    draws (emptyEdges size) (simple_empty size) (by rw [graphOf_empty, inner_bot]; have := hf.1; omega)
  obtain ⟨-, a2⟩ := fillLoop_spec size ((size + 1) / 2) 0 ((edgeCount + 1) / 2) (by omega) (by omega) 0
    (draws ++ ext1) (emptyEdges size) (simple_empty size)
  obtain ⟨b1, -, -, -, b5⟩ := a2 ds1 E1 h1
  rw [graphOf_empty] at b5
  have h0 : (inner (graphOf size E1) (block size (size / 2) ((size + 1) / 2))).ncard = 0 := by
    rw [Set.ncard_eq_zero (Set.toFinite _), Set.eq_empty_iff_forall_notMem]
    rintro e ⟨he1, he2⟩
    induction e with
    | _ x y =>
      obtain ⟨⟨-, e1⟩, -⟩ := b5 x y (by simpa using he1) (by simp)
      have := (he2 x (by simp)).1
      omega
  obtain ⟨ext2, ds2, E2, h2⟩ := fillLoop_append size (size / 2) ((size + 1) / 2) (edgeCount / 2) (by omega) (by omega) 0
    ds1 E1 b1 (by rw [h0]; have := hf.2; omega)
  refine ⟨ext1 ++ ext2, E2, ?_⟩
  unfold makeRandomDisconnectedGraph
  rw [if_neg (by omega)]
  simp only
  rw [← List.append_assoc, fillLoop_extend _ _ _ _ _ _ _ _ h1 ext2]
  simp only [h2]

/-- **C59, violated.** There is no check of the number of edges: if one half cannot hold its share, the generator
does not end, whatever the random numbers are. -/
theorem c59_too_many_edges_never_ends (size edgeCount : ℕ) (hs : 4 ≤ size) (hf : ¬ Fits size edgeCount)
    (draws : List ℕ) (old : Edges) : makeRandomDisconnectedGraph size edgeCount draws old = .more := by
  obtain ⟨h1, h2⟩ := disconnected_spec size edgeCount hs draws old
  cases hc : makeRandomDisconnectedGraph size edgeCount draws old with
  | undefined => exact absurd hc h1
  | more => rfl
  | done E => exact absurd (h2 E hc).1 hf

example : Fits 5 3 ∧ ¬ Fits 4 3 := by unfold Fits; decide

end Verif.Graph
