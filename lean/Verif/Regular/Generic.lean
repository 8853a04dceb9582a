import Verif.Regular.Ray
import Mathlib.Data.Finset.Powerset

/-!
# Generic heights

If no hyperplane contains more than `n` of the lifted rays, the regular subdivision is a triangulation.  Few heights are not generic.
-/

namespace Verif.Regular

open Verif.Barvinok Verif.Barvinok.Spec Verif.Brion
open Verif.ExpSubst (Fail)

variable {n : ℕ}

/-- **Specification.** No linear function agrees with the heights at more than `n` of the rays. -/
def GenericHeights (rays : List (Vec n)) (ws : List ℤ) : Prop :=
  ∀ (l : Fin n → ℝ) (S : Finset (Fin rays.length)), (∀ i ∈ S, dot (rays.get i) l = (ws.getD i 0 : ℤ)) → S.card ≤ n

theorem range_filter_card (N j : ℕ) (inc : ℕ → Bool) :
    ((List.range' j N).filter inc).length = (Finset.univ.filter fun i : Fin N => inc (j + i) = true).card := by
  have h : List.range' j N = (List.finRange N).map fun i : Fin N => j + (i : ℕ) := by
    apply List.ext_getElem
    · simp
    · intro i h1 h2
      simp
  rw [h, List.filter_map, List.length_map]
  have : (Finset.univ.filter fun i : Fin N => inc (j + i) = true) = ((List.finRange N).filter (inc ∘ fun i : Fin N => j + (i : ℕ))).toFinset := by
    ext i
    simp
  rw [this, List.toFinset_card_of_nodup ((List.nodup_finRange N).filter _)]

/-- Rays that lie on a lower facet lie on the graph of a linear function. -/
theorem facet_tight (rays : List (Vec n)) (hs : Spans rays) (w : Fin rays.length → ℝ) (F : Set (Fin (rays.length + 1)))
    (hF : IsFacet (lifted (rayOf rays) w) F) (hl : Fin.last _ ∉ F) : ∃ l : Fin n → ℝ, ∀ i : Fin rays.length, i.castSucc ∈ F → dot (rays.get i) l = w i := by
  have hspan' : Spanning (rayOf rays) Set.univ := by
    refine (spans_iff (rayOf rays) Set.univ rays fun r => ?_).1 hs
    constructor
    · intro hr
      obtain ⟨i, rfl⟩ := List.get_of_mem hr
      exact ⟨i, Set.mem_univ _, rfl⟩
    · rintro ⟨i, -, rfl⟩
      exact List.get_mem _ _
  obtain ⟨v, -, -, rfl⟩ := vertex_of_facet (rayOf rays) w hspan' F hF hl
  refine ⟨v, fun i hi => ?_⟩
  obtain ⟨j, hj, e⟩ := hi
  rw [Fin.castSucc_inj] at e
  subst e
  exact hj

theorem cdd_cell_le (dd : DD) (hdd : DDOk dd) (rays : List (Vec n)) (hs : Spans rays) (ws : List ℤ) (hgen : GenericHeights rays ws) :
    ∀ c ∈ (kept rays.length (dd (rays.length + 1) (n + 2) (ddMatrix rays ws))).map (cellOf rays), c.length ≤ n := by
  intro c hc
  obtain ⟨row, hrow, rfl⟩ := List.mem_map.1 hc
  unfold kept at hrow
  obtain ⟨h1, h2⟩ := List.mem_filter.1 hrow
  obtain ⟨-, hmem⟩ := hdd (rays.length + 1) (n + 2) (ddMatrix rays ws)
  rw [ddMatrix_eq] at hmem
  have hF := (facet_cons _ _).1 ((hmem _).1 (List.mem_map_of_mem h1))
  obtain ⟨l, hl⟩ := facet_tight rays hs _ _ hF (by
    show ¬ row.incident _ = true
    simpa using h2)
  unfold cellOf
  rw [coneFromRaySet_length, List.length_nil, add_zero, range_filter_card]
  refine hgen l _ fun i hi => ?_
  refine hl i ?_
  have := (Finset.mem_filter.1 hi).2
  show row.incident ((i.castSucc : ℕ) + 1) = true
  rw [Fin.val_castSucc, add_comm]
  exact this

theorem ray_cell_le (alg : RayAlg) (ha : RayAlgOk alg) (rays : List (Vec n)) (hs : Spans rays) (ws : List ℤ) (hgen : GenericHeights rays ws) :
    ∀ c ∈ (keptR rays.length (alg (rays.length + 1) (n + 1) (rayMatrix rays ws)).1).map (cellR rays), c.length ≤ n := by
  intro c hc
  obtain ⟨row, hrow, rfl⟩ := List.mem_map.1 hc
  obtain ⟨h1, h2⟩ := List.mem_filter.1 hrow
  obtain ⟨-, -, hmem, -⟩ := ha (rays.length + 1) (n + 1) (rayMatrix rays ws)
  rw [rayMatrix_eq] at hmem
  have hF := (hmem _).1 (List.mem_map.2 ⟨row, h1, rfl⟩)
  obtain ⟨l, hl⟩ := facet_tight rays hs _ _ hF (by
    show ¬ row (Fin.last rays.length : Fin _) = 0
    rw [Fin.val_last, row_vertical alg ha rays ws row h1, neg_eq_zero]
    simpa using h2)
  rw [← cellR_length, List.range_eq_range', range_filter_card]
  refine hgen l _ fun i hi => ?_
  refine hl i ?_
  have := (Finset.mem_filter.1 hi).2
  rw [zero_add] at this
  exact of_decide_eq_true this

/-- A walk in which all cells are simplicial, returns them. -/
theorem cddLoop_simplicial (ns : Bool) (again : List (Vec n) → ℕ → Except Fail (List (List (Vec n)) × ℕ)) (rays : List (Vec n)) :
    ∀ (rows : List DDRow) (k : ℕ), (∀ c ∈ (kept rays.length rows).map (cellOf rays), c.length = n) →
      cddLoop ns n again rays rows k = .ok ((kept rays.length rows).map (cellOf rays), k) := by
  intro rows
  induction rows with
  | nil => intro k _; rfl
  | cons row rows ih =>
    intro k h
    rw [cddLoop]
    by_cases he : row.equation = true
    · rw [kept_cons_equation _ _ _ he] at h ⊢
      rw [if_pos he, ih k h]
    · rw [if_neg he]
      by_cases hv : row.incident (rays.length + 1) = true
      · rw [kept_cons_vertical _ _ _ hv] at h ⊢
        rw [if_pos hv, ih k h]
      · rw [if_neg hv]
        rw [kept_cons _ _ _ he hv, List.map_cons] at h ⊢
        have hc := h _ List.mem_cons_self
        simp only [setCard_eq rays row hv, hc, lt_irrefl, false_and, if_false]
        rw [ih k fun c hc => h c (List.mem_cons_of_mem _ hc)]
        rfl

theorem rayLoop_simplicial (ns : Bool) (again : List (Vec n) → ℕ → Except Fail (List (List (Vec n)) × ℕ)) (rays : List (Vec n)) :
    ∀ (rows : List (ℕ → ℤ)) (k : ℕ), (∀ c ∈ (keptR rays.length rows).map (cellR rays), c.length = n) →
      rayLoop ns n again rays rows k = .ok ((keptR rays.length rows).map (cellR rays), k) := by
  intro rows
  induction rows with
  | nil => intro k _; rfl
  | cons row rows ih =>
    intro k h
    rw [rayLoop]
    by_cases hv : row (rays.length + 1) ≠ 0
    · have hk : keptR rays.length (row :: rows) = row :: keptR rays.length rows := by
        unfold keptR; rw [List.filter_cons_of_pos (by simpa using hv)]
      rw [hk, List.map_cons] at h ⊢
      have hc := h _ List.mem_cons_self
      rw [if_pos hv]
      simp only [cellR_length rays row, hc, lt_irrefl, false_and, if_false]
      rw [ih k fun c hc => h c (List.mem_cons_of_mem _ hc)]
      rfl
    · have hk : keptR rays.length (row :: rows) = keptR rays.length rows := by
        unfold keptR; rw [List.filter_cons_of_neg (by simpa using hv)]
      rw [hk] at h ⊢
      rw [if_neg hv, ih k h]

/-- With generic heights the program returns without recursion. -/
theorem triangulateCdd_generic (dd : DD) (hdd : DDOk dd) (g : Rng) (hg : g.Ok) (ns : Bool) (M : ℤ) (fuel : ℕ) (h : Height n) (rays : List (Vec n))
    (k : ℕ) (hs : Spans rays) (hok : HeightsOk h rays) (hgen : GenericHeights rays (heights g h rays k).1) :
    ∃ out, triangulateCdd dd ns M g n (fuel + 1) h rays k = .ok (out, (heights g h rays k).2) ∧ Triangulates out (generated rays) := by
  have hsub := cdd_subdivides dd hdd rays hs (heights g h rays k).1 (heights_feasible g hg h rays hok k)
  have hlen : ∀ c ∈ (kept rays.length (dd (rays.length + 1) (n + 2) (ddMatrix rays (heights g h rays k).1))).map (cellOf rays), c.length = n :=
    fun c hc => le_antisymm (cdd_cell_le dd hdd rays hs _ hgen c hc) (hsub.spans c hc).le_length
  refine ⟨_, ?_, hsub.triangulates hlen⟩
  rw [triangulateCdd]
  exact cddLoop_simplicial _ _ _ _ _ hlen

theorem triangulate4ti2_generic (alg : RayAlg) (ha : RayAlgOk alg) (lindep : List (Vec n) → List ℤ → Bool) (hl : LindepOk lindep)
    (g : Rng) (hg : g.Ok) (ns : Bool) (M : ℤ) (fuel : ℕ) (h : Height n) (rays : List (Vec n)) (k : ℕ) (hs : Spans rays) (hok : HeightsOk h rays)
    (hne : ¬ EqualHeights (heights g h rays k).1) (hgen : GenericHeights rays (heights g h rays k).1) :
    ∃ out, triangulate4ti2 alg lindep ns M g (fuel + 1) h rays k = .ok (out, (heights g h rays k).2) ∧ Triangulates out (generated rays) := by
  rw [triangulate4ti2]
  simp only
  rw [if_neg (fun hc => hne ((equal_iff _).1 hc))]
  by_cases hd : lindep rays (heights g h rays k).1 = true
  · rw [if_pos hd]
    refine ⟨_, rfl, (Subdivides.single rays hs).triangulates fun c hc => ?_⟩
    rw [List.mem_singleton.1 hc]
    obtain ⟨l, hl'⟩ := (hl _ _).1 hd
    have := hgen l Finset.univ fun i _ => hl' i
    rw [Finset.card_univ, Fintype.card_fin] at this
    exact le_antisymm this hs.le_length
  · rw [if_neg hd, ray_equations alg ha rays hs]
    have hsub := ray_subdivides alg ha rays hs (heights g h rays k).1 (heights_feasible g hg h rays hok k)
    have hlen : ∀ c ∈ (keptR rays.length (alg (rays.length + 1) (n + 1) (rayMatrix rays (heights g h rays k).1)).1).map (cellR rays), c.length = n :=
      fun c hc => le_antisymm (ray_cell_le alg ha rays hs _ hgen c hc) (hsub.spans c hc).le_length
    refine ⟨_, ?_, hsub.triangulates hlen⟩
    have := rayLoop_simplicial ns (triangulate4ti2 alg lindep ns M g fuel (.random M)) rays _ (heights g h rays k).2 hlen
    simpa using this

/-! ### How many heights are not generic -/

/-- More than `n` vectors satisfy a linear relation. -/
theorem exists_dependency {N : ℕ} (a : Fin N → Vec n) (S : Finset (Fin N)) (h : S.card = n + 1) :
    ∃ c : Fin N → ℝ, (∃ j ∈ S, c j ≠ 0) ∧ ∀ l : Fin n → ℝ, ∑ i ∈ S, c i * dot (a i) l = 0 := by
  obtain ⟨μ, hμ, hj, hz⟩ : ∃ μ : S → ℝ, True ∧ (∃ j, μ j ≠ 0) ∧ ∀ k, ∑ i : S, μ i * (a i.1 k : ℝ) = 0 := by
    have hdep : ¬ LinearIndependent ℝ fun i : S => (fun k => (a i.1 k : ℝ) : Fin n → ℝ) := by
      intro hli
      have := hli.fintype_card_le_finrank
      rw [Fintype.card_coe, h, Module.finrank_fin_fun] at this
      omega
    rw [Fintype.not_linearIndependent_iff] at hdep
    obtain ⟨μ, hμ, j, hj⟩ := hdep
    refine ⟨μ, trivial, ⟨j, hj⟩, fun k => ?_⟩
    have := congrFun hμ k
    simpa [Finset.sum_apply] using this
  refine ⟨fun i => if hi : i ∈ S then μ ⟨i, hi⟩ else 0, ?_, fun l => ?_⟩
  · obtain ⟨j, hj⟩ := hj
    exact ⟨j.1, j.2, by beta_reduce; rw [dif_pos j.2]; exact hj⟩
  · rw [← Finset.sum_coe_sort]
    have e : ∀ i : S, (if hi : (i : Fin N) ∈ S then μ ⟨i, hi⟩ else 0) * dot (a i) l = ∑ k, μ i * (a i.1 k : ℝ) * l k := by
      intro i
      rw [dif_pos i.2]
      unfold dot
      rw [Finset.mul_sum]
      exact Finset.sum_congr rfl fun k _ => by ring
    rw [Finset.sum_congr rfl fun i _ => e i, Finset.sum_comm]
    refine Finset.sum_eq_zero fun k _ => ?_
    rw [← Finset.sum_mul, hz, zero_mul]

open scoped Classical in
/-- Of the `maxHeight ^ N` choices of heights at most `C(N, n+1) * maxHeight ^ (N-1)` are not generic. -/
theorem generic_count (rays : List (Vec n)) (m : ℕ) :
    (Finset.univ.filter fun w : Fin rays.length → Fin m => ¬ GenericHeights rays (List.ofFn fun i => ((w i : ℕ) : ℤ) + 1)).card ≤
      rays.length.choose (n + 1) * m ^ (rays.length - 1) := by
  set N := rays.length with hN
  have hget : ∀ (w : Fin N → Fin m) (i : Fin N), (List.ofFn fun i => ((w i : ℕ) : ℤ) + 1).getD i 0 = ((w i : ℕ) : ℤ) + 1 := by
    intro w i
    rw [List.getD_eq_getElem?_getD, List.getElem?_eq_getElem (by simp)]
    simp
  have hsub : (Finset.univ.filter fun w : Fin N → Fin m => ¬ GenericHeights rays (List.ofFn fun i => ((w i : ℕ) : ℤ) + 1)) ⊆
      (Finset.powersetCard (n + 1) (Finset.univ : Finset (Fin N))).biUnion fun S =>
        Finset.univ.filter fun w : Fin N → Fin m => ∃ l : Fin n → ℝ, ∀ i ∈ S, dot (rays.get i) l = ((w i : ℕ) : ℝ) + 1 := by
    intro w hw
    have := (Finset.mem_filter.1 hw).2
    unfold GenericHeights at this
    push Not at this
    obtain ⟨l, S, hS, hcard⟩ := this
    obtain ⟨S', hS', hc⟩ := Finset.exists_subset_card_eq (show n + 1 ≤ S.card from hcard)
    refine Finset.mem_biUnion.2 ⟨S', Finset.mem_powersetCard.2 ⟨Finset.subset_univ _, hc⟩, Finset.mem_filter.2 ⟨Finset.mem_univ _, l, fun i hi => ?_⟩⟩
    rw [hS i (hS' hi), hget w i]
    push_cast
    rfl
  refine le_trans (Finset.card_le_card hsub) (le_trans Finset.card_biUnion_le ?_)
  have hone : ∀ S ∈ Finset.powersetCard (n + 1) (Finset.univ : Finset (Fin N)),
      (Finset.univ.filter fun w : Fin N → Fin m => ∃ l : Fin n → ℝ, ∀ i ∈ S, dot (rays.get i) l = ((w i : ℕ) : ℝ) + 1).card ≤ m ^ (N - 1) := by
    intro S hS
    obtain ⟨c, ⟨j, hjS, hj⟩, hc⟩ := exists_dependency (fun i => rays.get i) S (Finset.mem_powersetCard.1 hS).2
    have hinj : Set.InjOn (fun (w : Fin N → Fin m) (i : {i : Fin N // i ≠ j}) => w i)
        (Finset.univ.filter fun w : Fin N → Fin m => ∃ l : Fin n → ℝ, ∀ i ∈ S, dot (rays.get i) l = ((w i : ℕ) : ℝ) + 1) := by
      intro w hw w' hw' e
      obtain ⟨l, hl⟩ := (Finset.mem_filter.1 hw).2
      obtain ⟨l', hl'⟩ := (Finset.mem_filter.1 hw').2
      have hoff : ∀ i, i ≠ j → w i = w' i := fun i hi => congrFun e ⟨i, hi⟩
      have h1 := hc l
      have h2 := hc l'
      rw [Finset.sum_congr rfl fun i hi => by rw [hl i hi]] at h1
      rw [Finset.sum_congr rfl fun i hi => by rw [hl' i hi]] at h2
      rw [← Finset.add_sum_erase _ _ hjS] at h1 h2
      rw [Finset.sum_congr rfl fun i hi => by rw [hoff i (Finset.ne_of_mem_erase hi)]] at h1
      have h3 : c j * (((w j : ℕ) : ℝ) + 1) = c j * (((w' j : ℕ) : ℝ) + 1) := by linarith
      have h4 := mul_left_cancel₀ hj h3
      funext i
      by_cases hi : i = j
      · rw [hi]
        apply Fin.ext
        have : ((w j : ℕ) : ℝ) = ((w' j : ℕ) : ℝ) := by linarith
        exact_mod_cast this
      · exact hoff i hi
    have := Finset.card_le_card_of_injOn (t := Finset.univ) _ (fun _ _ => Finset.mem_univ _) hinj
    refine le_trans this ?_
    rw [Finset.card_univ, Fintype.card_fun, Fintype.card_fin]
    rw [Fintype.card_subtype_compl, Fintype.card_fin, Fintype.card_subtype_eq]
  refine le_trans (Finset.sum_le_card_nsmul _ _ _ hone) ?_
  rw [Finset.card_powersetCard, Finset.card_univ, Fintype.card_fin, smul_eq_mul]

end Verif.Regular
