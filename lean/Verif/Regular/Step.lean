import Verif.Regular.Facets

/-!
# One step of the regular triangulation, and putting subdivisions together
-/

namespace Verif.Regular

open Verif.Barvinok Verif.Barvinok.Spec Verif.Brion
open Verif.ExpSubst (Fail)

variable {n : ℕ}

/-- The lower facets subdivide the cone. -/
theorem subdivision_step {α : Type} (rays : List (Vec n)) (w : Fin rays.length → ℝ) (hspan : Spans rays) (hne : (Poly (rayOf rays) w).Nonempty)
    (rows : List α) (S : α → Set (Fin (rays.length + 1))) (cell : α → List (Vec n)) (hnd : (rows.map S).Nodup)
    (hmem : ∀ F, F ∈ rows.map S ↔ IsFacet (lifted (rayOf rays) w) F ∧ Fin.last _ ∉ F)
    (hcell : ∀ x ∈ rows, ∀ r, r ∈ cell x ↔ ∃ i : Fin rays.length, i.castSucc ∈ S x ∧ rayOf rays i = r) :
    Subdivides (rows.map cell) (generated rays) := by
  have hspan' : Spanning (rayOf rays) Set.univ := by
    refine (spans_iff (rayOf rays) Set.univ rays fun r => ?_).1 hspan
    constructor
    · intro hr
      obtain ⟨i, rfl⟩ := List.get_of_mem hr
      exact ⟨i, Set.mem_univ _, rfl⟩
    · rintro ⟨i, -, rfl⟩
      exact List.get_mem _ _
  have hgen : generated rays = coneOf (rayOf rays) Set.univ := rfl
  have hrow : ∀ x ∈ rows, ∃ v ∈ Poly (rayOf rays) w, Spanning (rayOf rays) (tight (rayOf rays) w v) ∧
      S x = Fin.castSucc '' tight (rayOf rays) w v ∧ generated (cell x) = coneOf (rayOf rays) (tight (rayOf rays) w v) ∧ Spans (cell x) := by
    intro x hx
    obtain ⟨hF, hl⟩ := (hmem _).1 (List.mem_map_of_mem hx)
    obtain ⟨v, hv, hs, e⟩ := vertex_of_facet (rayOf rays) w hspan' _ hF hl
    have hr : ∀ r, r ∈ cell x ↔ ∃ i ∈ tight (rayOf rays) w v, rayOf rays i = r := by
      intro r
      rw [hcell x hx]
      refine exists_congr fun i => and_congr_left fun _ => ?_
      rw [e]
      constructor
      · rintro ⟨j, hj, hji⟩
        rwa [← Fin.castSucc_inj.1 hji]
      · intro hi
        exact ⟨i, hi, rfl⟩
    exact ⟨v, hv, hs, e, generated_coneOf _ _ _ hr, (spans_iff _ _ _ hr).2 hs⟩
  refine ⟨?_, ?_, ?_⟩
  · intro c hc
    obtain ⟨x, hx, rfl⟩ := List.mem_map.1 hc
    obtain ⟨v, -, -, -, -, h⟩ := hrow x hx
    exact h
  · intro p
    constructor
    · intro hp
      rw [hgen] at hp
      obtain ⟨v, hv, hs, hpv⟩ := covers (rayOf rays) w hspan' hne p hp
      have hF := facet_of_vertex (rayOf rays) w v hv hs
      obtain ⟨x, hx, e⟩ := List.mem_map.1 ((hmem _).2 ⟨hF, last_notMem _⟩)
      obtain ⟨v', hv', hs', e', hg, -⟩ := hrow x hx
      have : tight (rayOf rays) w v' = tight (rayOf rays) w v :=
        (Set.image_injective.2 (Fin.castSucc_injective _)) (e'.symm.trans e)
      refine ⟨cell x, List.mem_map_of_mem hx, ?_⟩
      rw [hg, this]
      exact hpv
    · rintro ⟨c, hc, hp⟩
      obtain ⟨x, hx, rfl⟩ := List.mem_map.1 hc
      refine generated_subset _ _ (fun r hr => ?_) hp
      obtain ⟨i, -, rfl⟩ := (hcell x hx r).1 hr
      exact List.get_mem _ _
  · rw [List.pairwise_map]
    rw [List.Nodup, List.pairwise_map] at hnd
    refine hnd.imp_of_mem fun {x y} hx hy hxy => ?_
    obtain ⟨v, hv, -, e, hg, -⟩ := hrow x hx
    obtain ⟨v', hv', -, e', hg', -⟩ := hrow y hy
    rw [hg, hg']
    refine cells_disjoint (rayOf rays) w v v' hv hv' fun h => hxy ?_
    rw [e, e', h]

/-- Subdividing the parts of a subdivision. -/
theorem Subdivides.glue {cells : List (List (Vec n))} {outs : List (List (List (Vec n)))} {K : Set (Fin n → ℝ)} (h : Subdivides cells K)
    (ho : List.Forall₂ (fun c o => Subdivides o (generated c)) cells outs) : Subdivides outs.flatten K := by
  have hcov : ∀ p, (∃ c ∈ cells, p ∈ generated c) ↔ ∃ c ∈ outs.flatten, p ∈ generated c := by
    intro p
    clear h
    induction ho with
    | nil => simp
    | cons hd _ ih =>
      simp only [List.mem_cons, List.flatten_cons, List.mem_append, or_and_right, exists_or, exists_eq_left]
      rw [ih, hd.covers]
  have hsub : ∀ (c : List (Vec n)) (o : List (List (Vec n))), Subdivides o (generated c) → ∀ x ∈ o, generated x ⊆ generated c :=
    fun c o hs x hx p hp => (hs.covers p).2 ⟨x, hx, hp⟩
  refine ⟨?_, fun p => (h.covers p).trans (hcov p), ?_⟩
  · intro c hc
    obtain ⟨o, hoo, hco⟩ := List.mem_flatten.1 hc
    clear hcov h
    induction ho with
    | nil => simp at hoo
    | cons hd _ ih =>
      rcases List.mem_cons.1 hoo with rfl | h
      · exact hd.spans c hco
      · exact ih (List.mem_flatten.2 ⟨o, h, hco⟩) h
  · rw [List.pairwise_flatten]
    have hd := h.disjoint
    clear hcov h
    induction ho with
    | nil => simp
    | @cons c o cs os ho1 hos ih =>
      rw [List.pairwise_cons] at hd
      obtain ⟨h1, h2⟩ := ih hd.2
      refine ⟨?_, ?_⟩
      · intro l hl
        rcases List.mem_cons.1 hl with rfl | hl
        · exact ho1.disjoint
        · exact h1 l hl
      · rw [List.pairwise_cons]
        refine ⟨fun o' ho' x hx y hy => ?_, h2⟩
        obtain ⟨c', hc', hs'⟩ : ∃ c' ∈ cs, Subdivides o' (generated c') := by
          clear ih h1 h2 hd
          induction hos with
          | nil => simp at ho'
          | cons hd' _ ih' =>
            rcases List.mem_cons.1 ho' with rfl | h
            · exact ⟨_, List.mem_cons_self, hd'⟩
            · obtain ⟨c', hc', hs'⟩ := ih' h
              exact ⟨c', List.mem_cons_of_mem _ hc', hs'⟩
        have := hd.1 c' hc'
        rw [Set.eq_empty_iff_forall_notMem] at this ⊢
        rintro p ⟨hp1, hp2⟩
        exact this p ⟨interior_mono (hsub _ _ ho1 x hx) hp1, interior_mono (hsub _ _ hs' y hy) hp2⟩

theorem Subdivides.single (c : List (Vec n)) (h : Spans c) : Subdivides [c] (generated c) :=
  ⟨by simpa using h, by simp, by simp⟩

/-- A full-dimensional cone with `n` rays is simplicial. -/
theorem simplicial_of_length (c : List (Vec n)) (hl : c.length = n) (hs : Spans c) : (listMat c).det ≠ 0 ∧ cone (listMat c) = generated c := by
  have hrow : ∀ i : Fin n, listMat c i = c.get (i.cast hl.symm) := by
    intro i
    unfold listMat
    rw [List.getD_eq_getElem?_getD, List.getElem?_eq_getElem (by rw [hl]; exact i.2)]
    rfl
  constructor
  · intro h0
    have h1 : ((listMat c).map (Int.castRingHom ℝ)).det = 0 := by
      rw [← RingHom.mapMatrix_apply, ← RingHom.map_det, h0, map_zero]
    obtain ⟨d, hd, he⟩ := Matrix.exists_mulVec_eq_zero_iff.2 h1
    refine hd (hs d fun r hr => ?_)
    obtain ⟨i, rfl⟩ := List.get_of_mem hr
    have := congrFun he (i.cast hl)
    have e : listMat c (i.cast hl) = c.get i := by rw [hrow]; rfl
    unfold dot
    rw [← e]
    exact this
  · ext x
    unfold generated
    constructor
    · rintro ⟨f, hf, rfl⟩
      refine ⟨fun i => f (i.cast hl), fun i => hf _, by simp, fun k => ?_⟩
      unfold comb
      rw [← Equiv.sum_comp (finCongr hl)]
      refine Finset.sum_congr rfl fun i _ => ?_
      rw [hrow]
      rfl
    · rintro ⟨f, hf, -, e⟩
      refine ⟨fun i => f (i.cast hl.symm), fun i => hf _, ?_⟩
      funext k
      rw [e]
      unfold comb
      rw [← Equiv.sum_comp (finCongr hl)]
      refine Finset.sum_congr rfl fun i _ => ?_
      rw [hrow]
      rfl

theorem Subdivides.triangulates {out : List (List (Vec n))} {K : Set (Fin n → ℝ)} (h : Subdivides out K) (hl : ∀ c ∈ out, c.length = n) :
    Triangulates out K := by
  refine ⟨hl, ?_, ?_, ?_⟩
  · intro B hB
    obtain ⟨c, hc, rfl⟩ := List.mem_map.1 hB
    exact (simplicial_of_length c (hl c hc) (h.spans c hc)).1
  · intro p
    rw [h.covers]
    constructor
    · rintro ⟨c, hc, hp⟩
      exact ⟨listMat c, List.mem_map_of_mem hc, by rw [(simplicial_of_length c (hl c hc) (h.spans c hc)).2]; exact hp⟩
    · rintro ⟨B, hB, hp⟩
      obtain ⟨c, hc, rfl⟩ := List.mem_map.1 hB
      rw [(simplicial_of_length c (hl c hc) (h.spans c hc)).2] at hp
      exact ⟨c, hc, hp⟩
  · rw [List.pairwise_map]
    refine h.disjoint.imp_of_mem fun {c c'} hc hc' e => ?_
    rw [(simplicial_of_length c (hl c hc) (h.spans c hc)).2, (simplicial_of_length c' (hl c' hc') (h.spans c' hc')).2]
    exact e

/-! ### The rays of a cell -/

theorem coneFromRaySet_mem (inc : ℕ → Bool) (r : Vec n) : ∀ (L : List (Vec n)) (j : ℕ) (acc : List (Vec n)),
    r ∈ coneFromRaySet inc j L acc ↔ r ∈ acc ∨ ∃ i : Fin L.length, inc (j + i) = true ∧ L.get i = r := by
  intro L
  induction L with
  | nil => intro j acc; simp [coneFromRaySet]
  | cons x L ih =>
    intro j acc
    rw [coneFromRaySet, ih]
    have : (∃ i : Fin (x :: L).length, inc (j + i) = true ∧ (x :: L).get i = r) ↔
        (inc j = true ∧ x = r) ∨ ∃ i : Fin L.length, inc (j + 1 + i) = true ∧ L.get i = r := by
      constructor
      · rintro ⟨⟨i, hi⟩, h1, h2⟩
        cases i with
        | zero => exact .inl ⟨h1, h2⟩
        | succ i => exact .inr ⟨⟨i, by simpa using hi⟩, by rw [← h1]; congr 1; simp only; omega, h2⟩
      · rintro (⟨h1, h2⟩ | ⟨⟨i, hi⟩, h1, h2⟩)
        · exact ⟨⟨0, by simp⟩, h1, h2⟩
        · exact ⟨⟨i + 1, by simpa using hi⟩, by rw [← h1]; congr 1; simp only; omega, h2⟩
    rw [this]
    by_cases h : inc j = true
    · rw [if_pos h, List.mem_cons]
      constructor
      · rintro ((rfl | h1) | h2)
        · exact .inr (.inl ⟨h, rfl⟩)
        · exact .inl h1
        · exact .inr (.inr h2)
      · rintro (h1 | ⟨-, rfl⟩ | h2)
        · exact .inl (.inr h1)
        · exact .inl (.inl rfl)
        · exact .inr h2
    · rw [if_neg h]
      simp [h]

theorem coneFromRaySet_length (inc : ℕ → Bool) : ∀ (L : List (Vec n)) (j : ℕ) (acc : List (Vec n)),
    (coneFromRaySet inc j L acc).length = ((List.range' j L.length).filter inc).length + acc.length := by
  intro L
  induction L with
  | nil => intro j acc; simp [coneFromRaySet]
  | cons x L ih =>
    intro j acc
    rw [coneFromRaySet, ih, List.length_cons, List.range'_succ]
    by_cases h : inc j = true
    · rw [if_pos h, List.filter_cons_of_pos h, List.length_cons, List.length_cons]; omega
    · rw [if_neg h, List.filter_cons_of_neg h]

/-- A spanning list has at least `n` elements. -/
theorem Spans.le_length (c : List (Vec n)) (h : Spans c) : n ≤ c.length := by
  by_contra hc
  push Not at hc
  have h1 : (listMat c).det = 0 := by
    apply Matrix.det_eq_zero_of_row_eq_zero ⟨c.length, hc⟩
    intro k
    unfold listMat
    rw [List.getD_eq_getElem?_getD, List.getElem?_eq_none (by simp)]
    rfl
  have h2 : ((listMat c).map (Int.castRingHom ℝ)).det = 0 := by
    rw [← RingHom.mapMatrix_apply, ← RingHom.map_det, h1, map_zero]
  obtain ⟨d, hd, he⟩ := Matrix.exists_mulVec_eq_zero_iff.2 h2
  refine hd (h d fun r hr => ?_)
  obtain ⟨i, rfl⟩ := List.get_of_mem hr
  have := congrFun he ⟨i, by omega⟩
  have e : listMat c ⟨i, by omega⟩ = c.get i := by
    unfold listMat
    rw [List.getD_eq_getElem?_getD, List.getElem?_eq_getElem i.2]
    rfl
  unfold dot
  rw [← e]
  exact this

end Verif.Regular
