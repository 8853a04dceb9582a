import Verif.TopScript.Spec
import Verif.Vrep.Dualize
import Verif.Brion.Ehrhart

/-!
# The cones in the script represent the polytope
-/

namespace Verif.TopScript

open Verif.Barvinok Verif.Barvinok.Spec Verif.Ti2 Verif.Brion Verif.Regular
open Verif.ExpSubst (Fail)
open Verif.Vrep (DualOk dualOk_4ti2)

open scoped Pointwise

variable {n m N : ℕ}

theorem generated_nil_sub {R F : List (Vec n)} (h : IsRayList (Polar R) F []) : Polar R = generated F := by
  have h1 := polar_generated h
  rw [h1]
  ext y
  unfold generatedWith
  have hsp : Submodule.span ℝ (Set.range fun i : Fin ([] : List (Vec n)).length => toR (([] : List (Vec n)).get i)) = ⊥ := by
    rw [Submodule.span_eq_bot]
    rintro x ⟨i, -⟩
    exact i.elim0
  constructor
  · rintro ⟨u, hu, w, hw, rfl⟩
    rw [hsp, Submodule.mem_bot] at hw
    rwa [hw, add_zero]
  · intro hy
    exact ⟨y, hy, 0, by simp, by simp⟩

theorem dot_neg' (f : Vec n) (y : Fin n → ℝ) : dot f (-y) = -dot f y := by
  unfold dot
  rw [← Finset.sum_neg_distrib]
  exact Finset.sum_congr rfl fun k _ => by simp

/-- The polar cone of a generated cone. -/
theorem polar_of_generated (p : List (Vec n)) (y : Fin n → ℝ) : (∀ x ∈ generated p, ∑ k, x k * y k ≤ 0) ↔ y ∈ Polar p := by
  constructor
  · intro h r hr
    refine h (fun k => (r k : ℝ)) ?_
    rw [generated_iff]
    intro z hz
    exact hz r hr
  · intro h x hx
    rw [generated_iff] at hx
    exact hx y h

/-- A simplicial cone is the polar cone of a simplicial cone. -/
theorem simplicial_polar (p E : List (Vec n)) (hp : Spans p) (hpt : ∀ d : Fin n → ℝ, d ∈ generated p → -d ∈ generated p → d = 0)
    (hE : IsRayList (Polar p) E []) (hl : E.length = n) : Spans E ∧ ∃ B : Mat n, B.det ≠ 0 ∧ cone B = generated p ∧ polar B = generated E := by
  have hsE : Spans E := by
    intro d hd
    refine hpt d ?_ ?_
    · rw [bipolar hE]
      exact ⟨fun f hf => (hd f hf).le, by simp⟩
    · rw [bipolar hE]
      exact ⟨fun f hf => by rw [dot_neg', hd f hf, neg_zero], by simp⟩
  refine ⟨hsE, ?_⟩
  obtain ⟨alg, ha⟩ := raysOk_satisfiable
  obtain ⟨G, hG, -, -, hGr, -, -⟩ := (dualOk_4ti2 alg ha).1 (⟨0, E, [], [], []⟩ : GCone n) rfl rfl rfl hsE
  have hlen : G.rays.length = n := by
    unfold Ti2.dualizeCone at hG
    rw [if_neg (by simp), if_pos hl] at hG
    split at hG
    · cases hG
    · split at hG
      · cases hG
      · cases hG
        simp [GCone.swap]
  have hGp : generated G.rays = generated p := by
    rw [← generated_nil_sub hGr]
    ext x
    rw [bipolar hE]
    simp [Polar]
  have hsG : Spans G.rays := by
    intro d hd
    have h0 : ∀ y : Fin n → ℝ, (∀ r ∈ G.rays, dot r y ≤ 0) → y ∈ Polar p := by
      intro y hy
      rw [← polar_of_generated, ← hGp]
      intro x hx
      rw [generated_iff] at hx
      exact hx y hy
    have h1 := h0 d fun r hr => (hd r hr).le
    have h2 := h0 (-d) fun r hr => by rw [dot_neg', hd r hr, neg_zero]
    refine hp d fun r hr => le_antisymm (h1 r hr) ?_
    have := h2 r hr
    rw [dot_neg'] at this
    linarith
  obtain ⟨h1, h2⟩ := simplicial_of_length G.rays hlen hsG
  refine ⟨listMat G.rays, h1, h2.trans hGp, ?_⟩
  rw [← generated_nil_sub hE]
  ext y
  rw [← polar_of_generated, ← hGp, ← h2]
  rfl

/-- The parts after dualization. -/
theorem dualizeBack_spec (dual : GCone n → Except Fail (GCone n)) (hdu : DualOk dual) (vertex : Fin n → ℚ) : ∀ (ps : List (List (Vec n))) (S : List (GCone n)),
    (∀ p ∈ ps, Spans p) → dualizeBack dual vertex ps = .ok S → List.Forall₂ (fun p (E : GCone n) => E.vertex = vertex ∧ IsRayList (Polar p) E.rays []) ps S := by
  intro ps
  induction ps with
  | nil => intro S _ h; cases h; exact .nil
  | cons p ps ih =>
    intro S hs h
    obtain ⟨D, hD, h1, -, h2, -, -⟩ := hdu.1 (⟨vertex, p, [], [], []⟩ : GCone n) rfl rfl rfl (hs p (by simp))
    unfold dualizeBack at h
    rw [hD] at h
    dsimp only at h
    cases hb : dualizeBack dual vertex ps with
    | error e => rw [hb] at h; cases h
    | ok Ds =>
      rw [hb] at h
      cases h
      exact .cons ⟨h1, h2⟩ (ih Ds (fun p hp => hs p (by simp [hp])) hb)

/-- The cones listed for a vertex cone, moved to the origin. -/
structure Stands (C : GCone n) (S : List (GCone n)) : Prop where
  ne : S ≠ []
  vertex : ∀ c ∈ S, c.vertex = C.vertex
  length : ∀ c ∈ S, c.rays.length = n
  spans : ∀ c ∈ S, Spans c.rays
  sum : (fun y => (S.map fun c : GCone n => ind (generated c.rays) y).sum - ind (generated C.rays) y) ∈ lineFn n

theorem subdivides_triangulation (D : List (Vec n)) (parts Es : List (List (Vec n))) (hsub : Subdivides parts (generated D))
    (hpt : ∀ d : Fin n → ℝ, d ∈ generated D → -d ∈ generated D → d = 0)
    (h : List.Forall₂ (fun p E => IsRayList (Polar p) E []) parts Es) (hl : ∀ E ∈ Es, E.length = n) :
    (∀ E ∈ Es, Spans E) ∧ ∃ T : List (Mat n), Triangulation T (generated D) ∧ T.map polar = Es.map generated := by
  have hin : ∀ p ∈ parts, ∀ d, d ∈ generated p → d ∈ generated D := fun p hp d hd => (hsub.covers d).2 ⟨p, hp, hd⟩
  have key : ∀ parts Es : List (List (Vec n)), List.Forall₂ (fun p E => IsRayList (Polar p) E []) parts Es → (∀ p ∈ parts, Spans p) → (∀ p ∈ parts, ∀ d, d ∈ generated p → d ∈ generated D) →
      (∀ E ∈ Es, E.length = n) → (∀ E ∈ Es, Spans E) ∧ ∃ T : List (Mat n), (∀ B ∈ T, B.det ≠ 0) ∧ T.map cone = parts.map generated ∧ T.map polar = Es.map generated := by
    intro parts Es hf
    induction hf with
    | nil => intro _ _ _; exact ⟨by simp, [], by simp, rfl, rfl⟩
    | @cons p E ps Es h1 _ ih =>
      intro hs hD hl
      obtain ⟨i1, T, i2, i3, i4⟩ := ih (fun p hp => hs p (by simp [hp])) (fun p hp => hD p (by simp [hp])) fun E hE => hl E (by simp [hE])
      obtain ⟨j1, B, j2, j3, j4⟩ := simplicial_polar p E (hs p (by simp)) (fun d h h' => hpt d (hD p (by simp) d h) (hD p (by simp) _ h')) h1 (hl E (by simp))
      refine ⟨?_, B :: T, ?_, ?_, ?_⟩
      · intro E' hE'
        rcases List.mem_cons.1 hE' with rfl | hE'
        · exact j1
        · exact i1 E' hE'
      · intro B' hB'
        rcases List.mem_cons.1 hB' with rfl | hB'
        · exact j2
        · exact i2 B' hB'
      · rw [List.map_cons, List.map_cons, j3, i3]
      · rw [List.map_cons, List.map_cons, j4, i4]
  obtain ⟨k1, T, k2, k3, k4⟩ := key parts Es h hsub.spans hin hl
  refine ⟨k1, T, ⟨k2, fun q => ?_, ?_⟩, k4⟩
  · rw [hsub.covers]
    have : (∃ s ∈ parts.map generated, q ∈ s) ↔ ∃ s ∈ T.map cone, q ∈ s := by rw [k3]
    simpa using this
  · have h1 : (parts.map generated).Pairwise fun s s' => interior s ∩ interior s' = ∅ := by
      rw [List.pairwise_map]
      exact hsub.disjoint
    rw [← k3, List.pairwise_map] at h1
    exact h1

theorem simplicialCones_stands (dual : GCone (m + 1) → Except Fail (GCone (m + 1))) (hdu : DualOk dual)
    (tri : ℕ → List (Vec (m + 1)) → ℕ → Except Fail (List (List (Vec (m + 1))) × ℕ)) (htri : ∀ t, TriangulationOk (tri t)) (i : ℕ) (C : GCone (m + 1))
    (hf : C.facets = []) (hs : C.subspace = []) (he : C.equalities = []) (hsp : Spans C.rays)
    (hpt : ∀ d : Fin (m + 1) → ℝ, d ∈ generated C.rays → -d ∈ generated C.rays → d = 0) (S : List (GCone (m + 1)))
    (h : simplicialCones dual tri i C = .ok S) (hl : ∀ c ∈ S, c.rays.length = m + 1) : Stands C S := by
  unfold simplicialCones at h
  by_cases hlen : C.rays.length ≠ m + 1
  · rw [if_pos hlen] at h
    obtain ⟨D, hD, hv, hDf, hr, -, -⟩ := hdu.1 C hf hs he hsp
    rw [hD] at h
    dsimp only at h
    cases ht : tri i D.rays 0 with
    | error e => rw [ht] at h; cases h
    | ok q =>
      obtain ⟨parts, k⟩ := q
      rw [ht] at h
      dsimp only at h
      cases hdd : dual D with
      | error e => rw [hdd] at h; cases h
      | ok D' =>
        rw [hdd] at h
        dsimp only at h
        rw [collect_eq] at h
        have hCD : ∀ x, x ∈ generated C.rays ↔ ∀ f ∈ D.rays, dot f x ≤ 0 := fun x => by rw [bipolar hr]; simp
        have hsD : Spans D.rays := by
          intro d hd
          refine hpt d ((hCD d).2 fun f hf => (hd f hf).le) ((hCD _).2 fun f hf => by rw [dot_neg', hd f hf, neg_zero])
        have hDpt : ∀ d : Fin (m + 1) → ℝ, d ∈ generated D.rays → -d ∈ generated D.rays → d = 0 := by
          intro d h1 h2
          rw [← generated_nil_sub hr] at h1 h2
          refine hsp d fun r hr => le_antisymm (h1 r hr) ?_
          have := h2 r hr
          rw [dot_neg'] at this
          linarith
        have hsub := (htri i _ _ _ _ hsD ht).reverse
        have hback := dualizeBack_spec dual hdu D.vertex parts.reverse S hsub.spans h
        have hback' : List.Forall₂ (fun p E => IsRayList (Polar p) E []) parts.reverse (S.map fun c : GCone (m + 1) => c.rays) := by
          rw [List.forall₂_map_right_iff]
          exact hback.imp fun p E h => h.2
        obtain ⟨k1, T, k2, k3⟩ := subdivides_triangulation D.rays parts.reverse _ hsub hDpt hback' (by
          intro E hE
          obtain ⟨c, hc, rfl⟩ := List.mem_map.1 hE
          exact hl c hc)
        have hps := polar_sum (fun i : Fin D.rays.length => D.rays.get i) Set.univ T k2
        have hTS : ∀ y, (T.map fun B => ind (polar B) y).sum = (S.map fun c : GCone (m + 1) => ind (generated c.rays) y).sum := by
          intro y
          have : (T.map polar).map (fun s => ind s y) = ((S.map fun c : GCone (m + 1) => c.rays).map generated).map fun s => ind s y := by rw [k3]
          rw [List.map_map, List.map_map, List.map_map] at this
          exact congrArg List.sum this
        have hset : {y : Fin (m + 1) → ℝ | ∀ i ∈ (Set.univ : Set (Fin D.rays.length)), dot (D.rays.get i) y ≤ 0} = generated C.rays := by
          ext y
          rw [hCD]
          constructor
          · intro hy f hf
            obtain ⟨i, rfl⟩ := List.get_of_mem hf
            exact hy i trivial
          · intro hy i _
            exact hy _ (List.get_mem _ _)
        refine ⟨?_, ?_, hl, fun c hc => k1 _ (List.mem_map_of_mem hc), ?_⟩
        · rintro rfl
          have h0 : parts.reverse = [] := by
            exact List.forall₂_nil_right_iff.1 hback
          have := (hsub.covers 0).1 (by rw [generated_iff]; intro y _; simp)
          rw [h0] at this
          simp at this
        · intro c hc
          have : ∀ (ps : List (List (Vec (m + 1)))) (S : List (GCone (m + 1))),
              List.Forall₂ (fun p (E : GCone (m + 1)) => E.vertex = D.vertex ∧ IsRayList (Polar p) E.rays []) ps S → ∀ c ∈ S, c.vertex = D.vertex := by
            intro ps S h
            induction h with
            | nil => simp
            | cons h1 _ ih =>
              intro c hc
              rcases List.mem_cons.1 hc with rfl | hc
              · exact h1.1
              · exact ih c hc
          rw [this _ _ hback c hc, hv]
        · rw [hset] at hps
          simp only [hTS] at hps
          exact hps
  · rw [if_neg hlen] at h
    cases h
    refine ⟨by simp, by simp, hl, by simpa using hsp, ?_⟩
    have : (fun y => (([C] : List (GCone (m + 1))).map fun c : GCone (m + 1) => ind (generated c.rays) y).sum - ind (generated C.rays) y) = 0 := by
      funext y
      simp
    rw [this]
    exact Submodule.zero_mem _

theorem listedCones_stands (dual : GCone (m + 1) → Except Fail (GCone (m + 1))) (hdu : DualOk dual)
    (tri : ℕ → List (Vec (m + 1)) → ℕ → Except Fail (List (List (Vec (m + 1))) × ℕ)) (htri : ∀ t, TriangulationOk (tri t)) :
    ∀ (cones : List (GCone (m + 1))) (i : ℕ) (Ss : List (List (GCone (m + 1)))),
      (∀ C ∈ cones, C.facets = [] ∧ C.subspace = [] ∧ C.equalities = [] ∧ Spans C.rays ∧ ∀ d : Fin (m + 1) → ℝ, d ∈ generated C.rays → -d ∈ generated C.rays → d = 0) →
      listedCones dual tri i cones = .ok Ss → List.Forall₂ Stands cones Ss := by
  intro cones
  induction cones with
  | nil => intro i Ss _ h; cases h; exact .nil
  | cons C cones ih =>
    intro i Ss hC h
    unfold listedCones at h
    cases hS : simplicialCones dual tri i C with
    | error e => rw [hS] at h; cases h
    | ok S =>
      rw [hS] at h
      dsimp only at h
      by_cases hl : ∀ c ∈ S, c.rays.length = m + 1
      · rw [if_pos hl] at h
        cases hb : listedCones dual tri (i + 1) cones with
        | error e => rw [hb] at h; cases h
        | ok Ts =>
          rw [hb] at h
          cases h
          obtain ⟨h1, h2, h3, h4, h5⟩ := hC C (by simp)
          exact .cons (simplicialCones_stands dual hdu tri htri i C h1 h2 h3 h4 h5 S hS hl) (ih (i + 1) Ts (fun C hC' => hC C (by simp [hC'])) hb)
      · rw [if_neg hl] at h
        cases h

/-! ## Dilations -/

/-- Functions with lines stay so under translations. -/
theorem lineFn_shift {g : (Fin n → ℝ) → ℤ} (hg : g ∈ lineFn n) (w : Fin n → ℝ) : (fun y => g fun k => y k - w k) ∈ lineFn n := by
  induction hg using Submodule.span_induction with
  | mem f hf =>
    obtain ⟨l, hl, h⟩ := hf
    refine Submodule.subset_span ⟨l, hl, fun t y => ?_⟩
    have : (fun k => (y + fun k => t * (l k : ℝ)) k - w k) = (fun k => y k - w k) + fun k => t * (l k : ℝ) := by
      funext k
      simp only [Pi.add_apply]
      ring
    show f _ = f _
    rw [this]
    exact h t _
  | zero => exact Submodule.zero_mem _
  | add f g _ _ hf hg => exact Submodule.add_mem _ hf hg
  | smul c f _ hf => exact Submodule.smul_mem _ c hf

theorem poly_smul (a : Fin N → Vec n) (b : Fin N → ℝ) (τ : ℝ) (hτ : 0 < τ) (x : Fin n → ℝ) : x ∈ Poly a (fun i => τ * b i) ↔ (fun k => x k / τ) ∈ Poly a b := by
  refine forall_congr' fun i => ?_
  have : dot (a i) (fun k => x k / τ) = dot (a i) x / τ := by
    unfold dot
    rw [Finset.sum_div]
    exact Finset.sum_congr rfl fun k _ => by ring
  rw [this, div_le_iff₀ hτ, mul_comm (b i)]

/-- **The vertex cones represent every dilation.** -/
theorem brion_dilated (a : Fin N → Vec n) (b : Fin N → ℚ) (vs : List (Fin n → ℚ)) (hvs : IsVertexList a b vs) (τ : ℝ) (hτ : 0 < τ) :
    (fun y => (vs.map fun v => ind (tangent a b v) fun k => y k - τ * (v k : ℝ)).sum - ind {y | (fun k => y k / τ) ∈ Poly a fun i => (b i : ℝ)} y) ∈ lineFn n := by
  classical
  set emb : (Fin n → ℚ) → Fin n → ℝ := fun v k => τ * (v k : ℝ) with hemb
  have hinj : Function.Injective emb := by
    intro v w h
    funext k
    have : τ * (v k : ℝ) = τ * (w k : ℝ) := congrFun h k
    exact_mod_cast mul_left_cancel₀ hτ.ne' this
  have hset : Poly a (fun i => τ * (b i : ℝ)) = τ • Poly a fun i => (b i : ℝ) := by
    ext x
    rw [poly_smul a _ τ hτ, Set.mem_smul_set_iff_inv_smul_mem₀ hτ.ne']
    have : (fun k => x k / τ) = τ⁻¹ • x := by
      funext k
      rw [Pi.smul_apply, smul_eq_mul, div_eq_inv_mul]
    rw [this]
  have hext : ∀ x, x ∈ (Poly a fun i => τ * (b i : ℝ)).extremePoints ℝ ↔ τ⁻¹ • x ∈ (Poly a fun i => (b i : ℝ)).extremePoints ℝ := by
    intro x
    rw [hset]
    have himg : (τ • Poly a fun i => (b i : ℝ)) = (LinearEquiv.smulOfNeZero ℝ (Fin n → ℝ) τ hτ.ne') '' (Poly a fun i => (b i : ℝ)) := rfl
    rw [himg, ← image_extremePoints]
    constructor
    · rintro ⟨y, hy, rfl⟩
      have : τ⁻¹ • (LinearEquiv.smulOfNeZero ℝ (Fin n → ℝ) τ hτ.ne') y = y := by
        show τ⁻¹ • τ • y = y
        rw [smul_smul, inv_mul_cancel₀ hτ.ne', one_smul]
      rwa [this]
    · intro h
      refine ⟨_, h, ?_⟩
      show τ • τ⁻¹ • x = x
      rw [smul_smul, mul_inv_cancel₀ hτ.ne', one_smul]
  have hb := brion a (fun i => τ * (b i : ℝ)) (vs.map emb).toFinset (by
    intro x
    rw [hext, ← hvs.mem, List.mem_toFinset, List.mem_map]
    constructor
    · rintro ⟨v, hv, rfl⟩
      refine ⟨v, hv, ?_⟩
      funext k
      show τ⁻¹ * (τ * (v k : ℝ)) = v k
      rw [inv_mul_cancel_left₀ hτ.ne']
    · rintro ⟨v, hv, e⟩
      refine ⟨v, hv, ?_⟩
      funext k
      have : τ⁻¹ * x k = v k := congrFun e k
      show τ * (v k : ℝ) = x k
      rw [← this, mul_inv_cancel_left₀ hτ.ne'])
  have h1 : ∀ y, ∑ x ∈ (vs.map emb).toFinset, ind (TCone a (fun i => τ * (b i : ℝ)) x) y = (vs.map fun v => ind (tangent a b v) fun k => y k - τ * (v k : ℝ)).sum := by
    intro y
    rw [List.sum_toFinset _ ((List.nodup_map_iff hinj).2 hvs.nodup), List.map_map]
    congr 1
    refine List.map_congr_left fun v _ => ?_
    unfold ind
    have hsub : ∀ i, dot (a i) (fun k => y k - τ * (v k : ℝ)) = dot (a i) y - dot (a i) (emb v) := by
      intro i
      unfold dot
      rw [← Finset.sum_sub_distrib]
      exact Finset.sum_congr rfl fun k _ => by rw [hemb]; ring
    have hev : ∀ i, dot (a i) (emb v) = τ * ((∑ k, (a i k : ℚ) * v k : ℚ) : ℝ) := by
      intro i
      unfold dot
      push_cast
      rw [Finset.mul_sum]
      exact Finset.sum_congr rfl fun k _ => by rw [hemb]; ring
    have hact : ∀ i, dot (a i) (emb v) = τ * (b i : ℝ) ↔ i ∈ active a b v := by
      intro i
      rw [hev, mul_right_inj' hτ.ne', Rat.cast_inj]
      rfl
    have : (y ∈ TCone a (fun i => τ * (b i : ℝ)) (emb v)) ↔ (fun k => y k - τ * (v k : ℝ)) ∈ tangent a b v := by
      constructor
      · intro h i hi
        have := h i ((hact i).2 hi)
        rw [hsub, (hact i).2 hi]
        linarith
      · intro h i hi
        have := h i ((hact i).1 hi)
        rw [hsub, hi] at this
        linarith
    simp only [Function.comp, this]
  have h2 : ∀ y, ind (Poly a fun i => τ * (b i : ℝ)) y = ind {y | (fun k => y k / τ) ∈ Poly a fun i => (b i : ℝ)} y := by
    intro y
    unfold ind
    simp only [poly_smul a _ τ hτ, Set.mem_ofPred_eq]
  have := Submodule.neg_mem _ hb
  convert this using 1
  funext y
  rw [Pi.neg_apply, h1, h2]
  ring

/-- **The listed cones represent the polytope.** -/
theorem represent (a : Fin N → Vec (m + 1)) (b : Fin N → ℚ) (cones : List (GCone (m + 1))) (Ss : List (List (GCone (m + 1))))
    (hvs : IsVertexList a b (cones.map (·.vertex))) (htan : ∀ C ∈ cones, generated C.rays = tangent a b C.vertex) (h : List.Forall₂ Stands cones Ss) :
    Represent (Ss.flatten.map fun C => (C.vertex, C.rays)) (Poly a fun i => (b i : ℝ)) := by
  constructor
  · intro c hc
    obtain ⟨C, hC, rfl⟩ := List.mem_map.1 hc
    obtain ⟨S, hS, hCS⟩ := List.mem_flatten.1 hC
    have : ∀ (cones : List (GCone (m + 1))) Ss, List.Forall₂ Stands cones Ss → ∀ S ∈ Ss, ∃ C, Stands C S := by
      intro cones Ss h
      induction h with
      | nil => simp
      | @cons C S cs Ss h1 _ ih =>
        intro S' hS'
        rcases List.mem_cons.1 hS' with rfl | hS'
        · exact ⟨C, h1⟩
        · exact ih S' hS'
    obtain ⟨C', h'⟩ := this _ _ h S hS
    exact ⟨h'.length C hCS, h'.spans C hCS⟩
  · intro τ hτ
    have key : ∀ (cones : List (GCone (m + 1))) Ss, List.Forall₂ Stands cones Ss → (∀ C ∈ cones, generated C.rays = tangent a b C.vertex) →
        (fun y => ((Ss.flatten.map fun C : GCone (m + 1) => (C.vertex, C.rays)).map fun c => coneAt τ c y).sum -
          ((cones.map (·.vertex)).map fun v => ind (tangent a b v) fun k => y k - τ * (v k : ℝ)).sum) ∈ lineFn (m + 1) := by
      intro cones Ss h
      induction h with
      | nil =>
        intro _
        convert Submodule.zero_mem (lineFn (m + 1)) using 1
        funext y
        simp
      | @cons C S cs Ss h1 _ ih =>
        intro htan
        have ih := ih fun C hC => htan C (by simp [hC])
        have h2 := lineFn_shift h1.sum fun k => τ * (C.vertex k : ℝ)
        rw [htan C (by simp)] at h2
        convert Submodule.add_mem _ h2 ih using 1
        funext y
        have h3 : ((S.map fun C : GCone (m + 1) => (C.vertex, C.rays)).map fun c => coneAt τ c y).sum =
            (S.map fun c : GCone (m + 1) => ind (generated c.rays) fun k => y k - τ * (C.vertex k : ℝ)).sum := by
          rw [List.map_map]
          congr 1
          refine List.map_congr_left fun c hc => ?_
          simp only [Function.comp, coneAt, h1.vertex c hc]
        simp only [List.flatten_cons, List.map_append, List.sum_append, List.map_cons, List.sum_cons, Pi.add_apply, h3]
        ring
    convert Submodule.add_mem _ (key cones Ss h htan) (brion_dilated a b _ hvs τ hτ) using 1
    funext y
    simp only [Pi.add_apply]
    ring

end Verif.TopScript
