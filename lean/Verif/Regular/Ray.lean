import Verif.Regular.Cdd

/-!
# The triangulation with 4ti2
-/

namespace Verif.Regular

open Verif.Barvinok Verif.Barvinok.Spec Verif.Brion
open Verif.ExpSubst (Fail)

variable {n : ℕ}

/-- The rows that give a cone. -/
def keptR (N : ℕ) (rows : List (ℕ → ℤ)) : List (ℕ → ℤ) := rows.filter fun row => row (N + 1) ≠ 0

/-- The cone of a row. -/
def cellR (rays : List (Vec n)) (row : ℕ → ℤ) : List (Vec n) := coneFromRaySet (fun j => row j = 0) 0 rays []

theorem cellR_length (rays : List (Vec n)) (row : ℕ → ℤ) :
    ((List.range rays.length).filter fun j => decide (row j = 0)).length = (cellR rays row).length := by
  unfold cellR
  rw [coneFromRaySet_length, List.length_nil, add_zero, List.range_eq_range']

theorem cellR_mem (rays : List (Vec n)) (row : ℕ → ℤ) (r : Vec n) : r ∈ cellR rays row ↔ ∃ i : Fin rays.length, row i = 0 ∧ rays.get i = r := by
  unfold cellR
  rw [coneFromRaySet_mem]
  simp

theorem row_vertical (alg : RayAlg) (ha : RayAlgOk alg) (rays : List (Vec n)) (ws : List ℤ) (row : ℕ → ℤ)
    (hr : row ∈ (alg (rays.length + 1) (n + 1) (rayMatrix rays ws)).1) : row rays.length = -row (rays.length + 1) := by
  have := ((ha _ _ (rayMatrix rays ws)).1 row hr (Fin.last _)).2
  rw [Fin.sum_univ_succ] at this
  simpa [rayMatrix, Fin.snoc_last] using this

/-- The rows of 4ti2 give a subdivision. -/
theorem ray_subdivides (alg : RayAlg) (ha : RayAlgOk alg) (rays : List (Vec n)) (hs : Spans rays) (ws : List ℤ)
    (hne : (Poly (rayOf rays) (heightOf rays ws)).Nonempty) :
    Subdivides ((keptR rays.length (alg (rays.length + 1) (n + 1) (rayMatrix rays ws)).1).map (cellR rays)) (generated rays) := by
  obtain ⟨-, hnd, hmem, -⟩ := ha (rays.length + 1) (n + 1) (rayMatrix rays ws)
  rw [rayMatrix_eq] at hmem
  have hlast : ∀ row ∈ (alg (rays.length + 1) (n + 1) (rayMatrix rays ws)).1,
      (Fin.last rays.length ∈ {i : Fin (rays.length + 1) | row i = 0}) ↔ ¬ row (rays.length + 1) ≠ 0 := by
    intro row hr
    have h1 := row_vertical alg ha rays ws row hr
    show row (Fin.last rays.length : Fin _) = 0 ↔ _
    rw [Fin.val_last, h1, neg_eq_zero, not_not]
  refine subdivision_step rays (heightOf rays ws) hs hne _ (fun row => {i : Fin (rays.length + 1) | row i = 0}) (cellR rays) ?_ ?_ ?_
  · exact List.Sublist.nodup (List.Sublist.map _ List.filter_sublist) hnd
  · intro F
    rw [List.mem_map]
    constructor
    · rintro ⟨row, hr, rfl⟩
      obtain ⟨h1, h2⟩ := List.mem_filter.1 hr
      refine ⟨(hmem _).1 (List.mem_map.2 ⟨row, h1, rfl⟩), ?_⟩
      rw [hlast row h1]
      simpa using h2
    · rintro ⟨hF, hl⟩
      obtain ⟨row, h1, rfl⟩ := List.mem_map.1 ((hmem F).2 hF)
      rw [hlast row h1] at hl
      exact ⟨row, List.mem_filter.2 ⟨h1, by simpa using hl⟩, rfl⟩
  · intro row _ r
    rw [cellR_mem]
    rfl

/-- For full-dimensional cones there are no equations. -/
theorem ray_equations (alg : RayAlg) (ha : RayAlgOk alg) (rays : List (Vec n)) (hs : Spans rays) (ws : List ℤ) :
    (alg (rays.length + 1) (n + 1) (rayMatrix rays ws)).2 = 0 := by
  obtain ⟨-, -, -, h⟩ := ha (rays.length + 1) (n + 1) (rayMatrix rays ws)
  rw [h]
  have : (⨅ i, LinearMap.ker (fun_ fun k => ((rayMatrix rays ws i k : ℤ) : ℝ)) : Submodule ℝ (Fin (n + 1) → ℝ)) = ⊥ := by
    rw [Submodule.eq_bot_iff]
    intro x hx
    have hx' : ∀ i, ∑ k, x k * lifted (rayOf rays) (heightOf rays ws) i k = 0 := by
      intro i
      have h1 := (Submodule.mem_iInf _).1 hx i
      rw [LinearMap.mem_ker, fun_apply] at h1
      rw [← rayMatrix_eq]
      exact h1
    have h0 := hx' (Fin.last _)
    rw [pair_vertical] at h0
    have hd := hs (fun k => x k.succ) fun r hr => by
      obtain ⟨i, rfl⟩ := List.get_of_mem hr
      have h1 := hx' i.castSucc
      rw [pair_lifted, h0, zero_mul, zero_add] at h1
      exact h1
    funext k
    refine Fin.cases h0 (fun k => ?_) k
    exact congrFun hd k
  rw [this]
  exact finrank_bot ℝ _

/-- What the walk delivers. -/
theorem rayLoop_ok (ns : Bool) (dim : ℤ) (again : List (Vec n) → ℕ → Except Fail (List (List (Vec n)) × ℕ)) (rays : List (Vec n)) :
    ∀ (rows : List (ℕ → ℤ)) (k : ℕ) (out : List (List (Vec n))) (k' : ℕ), rayLoop ns dim again rays rows k = .ok (out, k') →
      ∃ outs : List (List (List (Vec n))), out = outs.flatten ∧
        List.Forall₂ (fun c o => (dim < c.length ∧ ns = false ∧ ∃ k k', again c k = .ok (o, k')) ∨ (¬ (dim < c.length ∧ ns = false) ∧ dim ≤ c.length ∧ o = [c]))
          ((keptR rays.length rows).map (cellR rays)) outs := by
  intro rows
  induction rows with
  | nil =>
    intro k out k' h
    rw [rayLoop] at h
    simp only [Except.ok.injEq, Prod.mk.injEq] at h
    exact ⟨[], by rw [← h.1]; rfl, by simp [keptR]⟩
  | cons row rows ih =>
    intro k out k' h
    rw [rayLoop] at h
    by_cases hv : row (rays.length + 1) ≠ 0
    · rw [if_pos hv] at h
      have hk : keptR rays.length (row :: rows) = row :: keptR rays.length rows := by
        unfold keptR; rw [List.filter_cons_of_pos (by simpa using hv)]
      rw [hk, List.map_cons]
      simp only [cellR_length rays row] at h
      change (match (if dim < (cellR rays row).length ∧ ns = false then again (cellR rays row) k else
        if ((cellR rays row).length : ℤ) < dim then Except.error Fail.abort else Except.ok ([cellR rays row], k)) with
        | Except.error e => Except.error e
        | Except.ok (out, k) =>
          match rayLoop ns dim again rays rows k with
          | Except.error e => Except.error e
          | Except.ok (outs, k) => Except.ok (out ++ outs, k)) = Except.ok (out, k') at h
      generalize hr : (if dim < (cellR rays row).length ∧ ns = false then again (cellR rays row) k else
        if ((cellR rays row).length : ℤ) < dim then Except.error Fail.abort else Except.ok ([cellR rays row], k)) = res at h
      cases res with
      | error e => cases h
      | ok p =>
        obtain ⟨o, k1⟩ := p
        simp only at h
        cases hrest : rayLoop ns dim again rays rows k1 with
        | error e => rw [hrest] at h; cases h
        | ok q =>
          obtain ⟨os, k2⟩ := q
          rw [hrest] at h
          simp only [Except.ok.injEq, Prod.mk.injEq] at h
          obtain ⟨outs, rfl, hf⟩ := ih k1 os k2 hrest
          refine ⟨o :: outs, by rw [← h.1]; rfl, List.Forall₂.cons ?_ hf⟩
          by_cases hc : dim < (cellR rays row).length ∧ ns = false
          · rw [if_pos hc] at hr
            exact .inl ⟨hc.1, hc.2, k, k1, hr⟩
          · rw [if_neg hc] at hr
            by_cases hlt : ((cellR rays row).length : ℤ) < dim
            · rw [if_pos hlt] at hr
              cases hr
            · rw [if_neg hlt] at hr
              simp only [Except.ok.injEq, Prod.mk.injEq] at hr
              exact .inr ⟨hc, not_lt.1 hlt, hr.1.symm⟩
    · rw [if_neg hv] at h
      have hk : keptR rays.length (row :: rows) = keptR rays.length rows := by
        unfold keptR; rw [List.filter_cons_of_neg (by simpa using hv)]
      rw [hk]
      exact ih k out k' h

/-- The heights drawn for the rays of `c` are a linear function of the rays. -/
def LinearHeights (c : List (Vec n)) (ws : List ℤ) : Prop := ∃ l : Fin n → ℝ, ∀ i : Fin c.length, dot (c.get i) l = (ws.getD i 0 : ℤ)

/-- The heights drawn for the rays of `c` are all equal. -/
def EqualHeights (ws : List ℤ) : Prop := ∀ x ∈ ws, ∀ y ∈ ws, x = y

/-- The heights of the rays of `c` do not subdivide the cone. -/
def Degenerate (c : List (Vec n)) (ws : List ℤ) : Prop := EqualHeights ws ∨ LinearHeights c ws

theorem equal_iff (ws : List ℤ) : (ws.all fun x => decide (x = ws.headD 0)) = true ↔ EqualHeights ws := by
  cases ws with
  | nil => simp [EqualHeights]
  | cons a l =>
    simp only [List.headD_cons, List.all_eq_true]
    constructor
    · intro h x hx y hy
      rw [of_decide_eq_true (h x hx), of_decide_eq_true (h y hy)]
    · intro h x hx
      exact decide_eq_true (h x hx a List.mem_cons_self)

/-- Whenever the program returns, it has subdivided the cone; a part with more than `n` rays is one for which the heights drawn were equal or linear. -/
theorem triangulate4ti2_subdivides (alg : RayAlg) (ha : RayAlgOk alg) (lindep : List (Vec n) → List ℤ → Bool) (hl : LindepOk lindep)
    (g : Rng) (hg : g.Ok) (ns : Bool) (M : ℤ) (hM : 1 ≤ M) :
    ∀ (fuel : ℕ) (h : Height n) (rays : List (Vec n)) (k : ℕ) (out : List (List (Vec n))) (k' : ℕ), Spans rays → HeightsOk h rays →
      triangulate4ti2 alg lindep ns M g fuel h rays k = .ok (out, k') →
      Subdivides out (generated rays) ∧ (∀ c ∈ out, ∀ r ∈ c, r ∈ rays) ∧
        (ns = false → ∀ c ∈ out, c.length ≠ n → (c = rays ∧ Degenerate c (heights g h rays k).1) ∨ ∃ j, Degenerate c (heights g (.random M) c j).1) := by
  intro fuel
  induction fuel with
  | zero => intro h rays k out k' _ _ e; cases e
  | succ fuel ih =>
    intro h rays k out k' hs hok e
    rw [triangulate4ti2] at e
    simp only at e
    by_cases he : ((heights g h rays k).1.all fun x => decide (x = (heights g h rays k).1.headD 0)) = true
    · rw [if_pos he] at e
      simp only [Except.ok.injEq, Prod.mk.injEq] at e
      rw [← e.1]
      refine ⟨Subdivides.single rays hs, by simp, fun _ c hc _ => ?_⟩
      rw [List.mem_singleton.1 hc]
      exact .inl ⟨rfl, .inl ((equal_iff _).1 he)⟩
    · rw [if_neg he] at e
      by_cases hd : lindep rays (heights g h rays k).1 = true
      · rw [if_pos hd] at e
        simp only [Except.ok.injEq, Prod.mk.injEq] at e
        rw [← e.1]
        refine ⟨Subdivides.single rays hs, by simp, fun _ c hc _ => ?_⟩
        rw [List.mem_singleton.1 hc]
        exact .inl ⟨rfl, .inr ((hl _ _).1 hd)⟩
      · rw [if_neg hd, ray_equations alg ha rays hs] at e
        have hsub := ray_subdivides alg ha rays hs (heights g h rays k).1 (heights_feasible g hg h rays hok k)
        obtain ⟨outs, rfl, hf⟩ := rayLoop_ok _ _ _ _ _ _ _ _ e
        have hray : ∀ c ∈ (keptR rays.length (alg (rays.length + 1) (n + 1) (rayMatrix rays (heights g h rays k).1)).1).map (cellR rays), ∀ r ∈ c, r ∈ rays := by
          intro c hc r hr
          obtain ⟨row, -, rfl⟩ := List.mem_map.1 hc
          obtain ⟨i, -, rfl⟩ := (cellR_mem _ _ _).1 hr
          exact List.get_mem _ _
        have hf' := forall₂_imp_mem (S := fun c o => Subdivides o (generated c) ∧ (∀ x ∈ o, ∀ r ∈ x, r ∈ rays) ∧
          (ns = false → ∀ c ∈ o, c.length ≠ n → ∃ j, Degenerate c (heights g (.random M) c j).1)) hf
          fun c hc o ho => by
            rcases ho with ⟨-, -, k1, k2, ho⟩ | ⟨h1, h2, rfl⟩
            · obtain ⟨a1, a2, a3⟩ := ih (.random M) c k1 o k2 (hsub.spans c hc) hM ho
              refine ⟨a1, fun x hx r hr => hray c hc r (a2 x hx r hr), fun hns x hx hx' => ?_⟩
              rcases a3 hns x hx hx' with ⟨rfl, h⟩ | h
              · exact ⟨k1, h⟩
              · exact h
            · refine ⟨Subdivides.single c (hsub.spans c hc), fun x hx => ?_, fun hns x hx hx' => ?_⟩
              · rw [List.mem_singleton.1 hx]
                exact hray c hc
              · rw [List.mem_singleton.1 hx] at hx'
                rw [hns] at h1
                simp at h1 h2
                omega
        refine ⟨hsub.glue (forall₂_imp_mem hf' fun c _ o ho => ho.1), ?_, ?_⟩
        · intro c hc
          obtain ⟨o, ho, hco⟩ := List.mem_flatten.1 hc
          obtain ⟨c', -, hR⟩ := forall₂_mem_right hf' ho
          exact hR.2.1 c hco
        · intro hns c hc
          obtain ⟨o, ho, hco⟩ := List.mem_flatten.1 hc
          obtain ⟨c', -, hR⟩ := forall₂_mem_right hf' ho
          exact fun hx => .inr (hR.2.2 hns c hco hx)

/-- A walk in which all recursive calls return, returns. -/
theorem rayLoop_total (ns : Bool) (dim : ℤ) (again : List (Vec n) → ℕ → Except Fail (List (List (Vec n)) × ℕ)) (rays : List (Vec n)) :
    ∀ (rows : List (ℕ → ℤ)) (k : ℕ),
      (∀ c ∈ (keptR rays.length rows).map (cellR rays), dim ≤ c.length ∧ (dim < c.length → ∀ k, ∃ p, again c k = .ok p)) →
      ∃ p, rayLoop ns dim again rays rows k = .ok p := by
  intro rows
  induction rows with
  | nil => intro k _; exact ⟨_, rfl⟩
  | cons row rows ih =>
    intro k h
    rw [rayLoop]
    by_cases hv : row (rays.length + 1) ≠ 0
    · rw [if_pos hv]
      have hk : keptR rays.length (row :: rows) = row :: keptR rays.length rows := by
        unfold keptR; rw [List.filter_cons_of_pos (by simpa using hv)]
      rw [hk, List.map_cons] at h
      simp only [cellR_length rays row]
      obtain ⟨h1, h2⟩ := h _ List.mem_cons_self
      have hr : ∃ p, (if dim < (cellR rays row).length ∧ ns = false then again (cellR rays row) k else
          if ((cellR rays row).length : ℤ) < dim then Except.error Fail.abort else Except.ok ([cellR rays row], k)) = Except.ok p := by
        by_cases hc : dim < (cellR rays row).length ∧ ns = false
        · rw [if_pos hc]; exact h2 hc.1 k
        · rw [if_neg hc, if_neg (not_lt.2 h1)]; exact ⟨_, rfl⟩
      obtain ⟨⟨o, k1⟩, hr⟩ := hr
      obtain ⟨⟨os, k2⟩, hrest⟩ := ih k1 fun c hc => h c (List.mem_cons_of_mem _ hc)
      change ∃ p, (match (if dim < (cellR rays row).length ∧ ns = false then again (cellR rays row) k else
        if ((cellR rays row).length : ℤ) < dim then Except.error Fail.abort else Except.ok ([cellR rays row], k)) with
        | Except.error e => Except.error e
        | Except.ok (out, k) =>
          match rayLoop ns dim again rays rows k with
          | Except.error e => Except.error e
          | Except.ok (outs, k) => Except.ok (out ++ outs, k)) = Except.ok p
      rw [hr]
      dsimp only
      rw [hrest]
      exact ⟨_, rfl⟩
    · rw [if_neg hv]
      have hk : keptR rays.length (row :: rows) = keptR rays.length rows := by
        unfold keptR; rw [List.filter_cons_of_neg (by simpa using hv)]
      rw [hk] at h
      exact ih k h

/-- The program always returns: if the heights are not linear, every part has fewer rays than the cone. -/
theorem triangulate4ti2_total (alg : RayAlg) (ha : RayAlgOk alg) (lindep : List (Vec n) → List ℤ → Bool) (hl : LindepOk lindep)
    (g : Rng) (hg : g.Ok) (ns : Bool) (M : ℤ) (hM : 1 ≤ M) :
    ∀ (fuel : ℕ) (h : Height n) (rays : List (Vec n)) (k : ℕ), Spans rays → HeightsOk h rays → rays.length < fuel →
      ∃ p, triangulate4ti2 alg lindep ns M g fuel h rays k = .ok p := by
  intro fuel
  induction fuel with
  | zero => intro h rays k _ _ hf; omega
  | succ fuel ih =>
    intro h rays k hs hok hf
    rw [triangulate4ti2]
    simp only
    by_cases he : ((heights g h rays k).1.all fun x => decide (x = (heights g h rays k).1.headD 0)) = true
    · rw [if_pos he]; exact ⟨_, rfl⟩
    · rw [if_neg he]
      by_cases hd : lindep rays (heights g h rays k).1 = true
      · rw [if_pos hd]; exact ⟨_, rfl⟩
      · rw [if_neg hd, ray_equations alg ha rays hs]
        have hne := heights_feasible g hg h rays hok k
        have hsub := ray_subdivides alg ha rays hs (heights g h rays k).1 hne
        apply rayLoop_total
        intro c hc
        have hcs := hsub.spans c hc
        refine ⟨by have := hcs.le_length; simpa using this, fun _ k1 => ih (.random M) c k1 hcs hM ?_⟩
        obtain ⟨row, hrow, rfl⟩ := List.mem_map.1 hc
        obtain ⟨hr1, hr2⟩ := List.mem_filter.1 hrow
        by_contra hlen
        have hle : (cellR rays row).length ≤ rays.length := by
          rw [← cellR_length]
          exact le_trans (List.length_filter_le _ _) (by simp)
        have hall : ((List.range rays.length).filter fun j => decide (row j = 0)).length = (List.range rays.length).length := by
          rw [cellR_length, List.length_range]; omega
        rw [List.length_filter_eq_length_iff] at hall
        apply hd
        rw [hl]
        -- the facet gives the linear function
        obtain ⟨h1, -, -, -⟩ := ha (rays.length + 1) (n + 1) (rayMatrix rays (heights g h rays k).1)
        have hu : row (rays.length + 1) ≠ 0 := by simpa using hr2
        refine ⟨fun j => -((row (rays.length + 1 + (j : ℕ) + 1) : ℤ) : ℝ) / (row (rays.length + 1) : ℤ), fun i => ?_⟩
        have h2 := (h1 row hr1 i.castSucc).2
        have h3 : row i = 0 := by simpa using hall i (List.mem_range.2 i.2)
        rw [Fin.val_castSucc, h3, Fin.sum_univ_succ] at h2
        simp only [rayMatrix, Fin.snoc_castSucc, Fin.cons_zero, Fin.cons_succ, Fin.val_zero, add_zero, Fin.val_succ] at h2
        have h4 : ((heights g h rays k).1.getD i 0 : ℤ) * (row (rays.length + 1) : ℝ) +
            ∑ j : Fin n, (rays.get i j : ℝ) * (row (rays.length + 1 + ((j : ℕ) + 1)) : ℝ) = 0 := by
          exact_mod_cast (neg_eq_zero.1 h2.symm)
        have hu' : (row (rays.length + 1) : ℝ) ≠ 0 := by exact_mod_cast hu
        unfold dot
        have h5 : ∑ j : Fin n, (rays.get i j : ℝ) * (-((row (rays.length + 1 + (j : ℕ) + 1) : ℤ) : ℝ) / (row (rays.length + 1) : ℤ)) =
            -(∑ j : Fin n, (rays.get i j : ℝ) * (row (rays.length + 1 + ((j : ℕ) + 1)) : ℝ)) / (row (rays.length + 1) : ℤ) := by
          rw [← Finset.sum_neg_distrib, Finset.sum_div]
          refine Finset.sum_congr rfl fun j _ => ?_
          rw [← add_assoc]
          ring
        rw [h5, div_eq_iff hu']
        linarith

end Verif.Regular
