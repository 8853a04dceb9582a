import Verif.Vrep.Spec
import Verif.Ti2.Dual
import Verif.Ti2.Exists

/-!
# Dualization with cdd (C90)
-/

namespace Verif.Vrep

open Verif.Barvinok Verif.Barvinok.Spec Verif.Brion Verif.Ti2 Verif.Regular Verif.CddV Verif.ExpSubst

variable {n : ℕ}

/-! ## Positive multiples -/

/-- One vector is a positive multiple of the other. -/
def PosMul (r r' : Vec n) : Prop := ∃ c : ℝ, 0 < c ∧ toR r' = c • toR r

theorem facetOf_multiple (row : List ℚ) (r : Vec n) (h : Multiple row r) : PosMul r (facetOf row) := by
  obtain ⟨c, hc, rfl⟩ := h
  set e : List (ℤ × ℤ) := (List.tail (0 :: List.ofFn fun k => c * (r k : ℚ))).map fun q => (q.num, (q.den : ℤ)) with he
  have hpos : ∀ x ∈ e, 0 < x.2 := by
    intro x hx
    obtain ⟨q, -, rfl⟩ := List.mem_map.1 hx
    exact Int.natCast_pos.2 q.den_pos
  obtain ⟨h1, c', hc', h2⟩ := Latte.RatVec.c06_normalize e hpos
  have hval : e.map Latte.RatVec.val = List.ofFn fun k => c * (r k : ℚ) := by
    rw [he, List.tail_cons, List.map_map]
    conv_rhs => rw [← List.map_id (List.ofFn fun k => c * (r k : ℚ))]
    refine List.map_congr_left fun q _ => ?_
    exact Rat.num_div_den q
  rw [hval] at h2
  refine ⟨(c' : ℝ) * (c : ℝ), by have : (0 : ℝ) < c' := by exact_mod_cast hc'
                                 have : (0 : ℝ) < c := by exact_mod_cast hc
                                 positivity, ?_⟩
  funext k
  have hlen : (Latte.RatVec.normalize (Latte.RatVec.ofEntries e)).ents.length = n := by
    have := congrArg List.length h2
    simpa using this
  have hk : (k : ℕ) < (Latte.RatVec.normalize (Latte.RatVec.ofEntries e)).ents.length := by rw [hlen]; exact k.2
  have h3 : ((Latte.RatVec.normalize (Latte.RatVec.ofEntries e)).ents.map Latte.RatVec.val)[(k : ℕ)]? = some ((c' : ℚ) * (c * (r k : ℚ))) := by
    rw [h2, List.getElem?_map, List.getElem?_ofFn]
    simp
  rw [List.getElem?_map, List.getElem?_eq_getElem hk, Option.map_some, Option.some.injEq] at h3
  have h4 := h1 _ (List.getElem_mem hk)
  unfold Latte.RatVec.val at h3
  rw [h4] at h3
  have h5 : facetOf (0 :: List.ofFn fun k => c * (r k : ℚ)) k = ((Latte.RatVec.normalize (Latte.RatVec.ofEntries e)).ents[(k : ℕ)]).1 := by
    unfold facetOf
    rw [← he, List.getD_eq_getElem _ _ hk]
  show ((facetOf _ k : ℤ) : ℝ) = _
  rw [h5]
  have h6 : ((((Latte.RatVec.normalize (Latte.RatVec.ofEntries e)).ents[(k : ℕ)]).1 : ℚ) : ℝ) = ((c' * (c * (r k : ℚ)) : ℚ) : ℝ) := by
    rw [← h3]; simp
  push_cast at h6
  rw [h6]
  show _ = (c' * c : ℝ) * (r k : ℝ)
  ring

theorem lineality_smul {K : Set (Fin n → ℝ)} (hK : ∀ c : ℝ, 0 < c → ∀ x ∈ K, c • x ∈ K) {c : ℝ} (hc : 0 < c) {x : Fin n → ℝ} (hx : x ∈ Lineality K) :
    c • x ∈ Lineality K := ⟨hK c hc x hx.1, by rw [← smul_neg]; exact hK c hc _ hx.2⟩

theorem extreme_smul {K : Set (Fin n → ℝ)} (hK : ∀ c : ℝ, 0 < c → ∀ x ∈ K, c • x ∈ K) {c : ℝ} (hc : 0 < c) {e : Fin n → ℝ} (he : IsExtremeRay K e) :
    IsExtremeRay K (c • e) := by
  obtain ⟨h1, h2, h3⟩ := he
  refine ⟨hK c hc e h1, fun h => h2 ?_, fun u hu w hw huw => ?_⟩
  · have := hK c⁻¹ (inv_pos.2 hc) _ h
    rwa [smul_neg, smul_smul, inv_mul_cancel₀ hc.ne', one_smul] at this
  · obtain ⟨d, hd, hl⟩ := h3 (c⁻¹ • u) (hK _ (inv_pos.2 hc) _ hu) (c⁻¹ • w) (hK _ (inv_pos.2 hc) _ hw) (by
      rw [← smul_add, huw, smul_smul, inv_mul_cancel₀ hc.ne', one_smul])
    refine ⟨d, hd, ?_⟩
    have := lineality_smul hK hc hl
    rwa [smul_sub, smul_smul, mul_inv_cancel₀ hc.ne', one_smul, smul_comm] at this

/-- The contract does not depend on positive factors of the rays. -/
theorem rayList_posMul {K : Set (Fin n → ℝ)} (hK : ∀ c : ℝ, 0 < c → ∀ x ∈ K, c • x ∈ K) {rays rays' sub : List (Vec n)} (h : IsRayList K rays sub)
    (hr : List.Forall₂ PosMul rays rays') : IsRayList K rays' sub := by
  have hget := List.forall₂_iff_get.1 hr
  have hmem' : ∀ r' ∈ rays', ∃ r ∈ rays, PosMul r r' := by
    intro r' h'
    obtain ⟨i, hi, rfl⟩ := List.getElem_of_mem h'
    exact ⟨_, List.getElem_mem (by rw [hget.1]; exact hi), hget.2 i (by rw [hget.1]; exact hi) hi⟩
  have hmem : ∀ r ∈ rays, ∃ r' ∈ rays', PosMul r r' := by
    intro r h'
    obtain ⟨i, hi, rfl⟩ := List.getElem_of_mem h'
    exact ⟨_, List.getElem_mem (by rw [← hget.1]; exact hi), hget.2 i hi (by rw [← hget.1]; exact hi)⟩
  refine ⟨?_, ?_, ?_, h.basis, h.independent⟩
  · intro r' h'
    obtain ⟨r, hr, c, hc, e⟩ := hmem' r' h'
    rw [e]
    exact extreme_smul hK hc (h.extreme r hr)
  · intro e he
    obtain ⟨r, hr, c, hc, hl⟩ := h.all e he
    obtain ⟨r', hr', d, hd, e'⟩ := hmem r hr
    refine ⟨r', hr', c * d⁻¹, mul_pos hc (inv_pos.2 hd), ?_⟩
    rwa [e', smul_smul, mul_assoc, inv_mul_cancel₀ hd.ne', mul_one]
  · rw [List.pairwise_iff_get]
    intro i j hij c hc hl
    have hi : (i : ℕ) < rays.length := by rw [hget.1]; exact i.2
    have hj : (j : ℕ) < rays.length := by rw [hget.1]; exact j.2
    obtain ⟨a, ha, ea⟩ := hget.2 i hi i.2
    obtain ⟨b, hb, eb⟩ := hget.2 j hj j.2
    have := List.pairwise_iff_get.1 h.once ⟨i, hi⟩ ⟨j, hj⟩ hij (a⁻¹ * c * b) (by positivity)
    apply this
    have h2 := lineality_smul hK (inv_pos.2 ha) hl
    have ea' : toR (rays'.get i) = a • toR (rays.get ⟨i, hi⟩) := ea
    have eb' : toR (rays'.get j) = b • toR (rays.get ⟨j, hj⟩) := eb
    rw [ea', eb', smul_sub, smul_smul, inv_mul_cancel₀ ha.ne', one_smul, smul_smul, smul_smul] at h2
    exact h2

theorem polar_smul (R : List (Vec n)) : ∀ c : ℝ, 0 < c → ∀ x ∈ Polar R, c • x ∈ Polar R := by
  intro c hc x hx r hr
  have := hx r hr
  have e : dot r (c • x) = c * dot r x := by
    unfold dot
    rw [Finset.mul_sum]
    exact Finset.sum_congr rfl fun k _ => by simp; ring
  rw [e]
  exact mul_nonpos_of_nonneg_of_nonpos hc.le this

theorem neg_cone (R : List (Vec n)) : {y : Fin n → ℝ | ∀ a ∈ R.map fun r => -r, 0 ≤ dot a y} = Polar R := by
  ext y
  have hneg : ∀ f : Vec n, dot (-f) y = -dot f y := by
    intro f
    unfold dot
    rw [← Finset.sum_neg_distrib]
    exact Finset.sum_congr rfl fun k _ => by simp
  constructor
  · intro h r hr
    have := h (-r) (List.mem_map_of_mem hr)
    rw [hneg] at this
    linarith
  · intro h a ha
    obtain ⟨r, hr, rfl⟩ := List.mem_map.1 ha
    have := h r hr
    rw [hneg]
    linarith

/-! ## The dualization -/

/-- What dualization is to do with a cone given by rays that span the space. -/
def DualOk (dual : GCone n → Except Fail (GCone n)) : Prop :=
  (∀ C : GCone n, C.facets = [] → C.subspace = [] → C.equalities = [] → Spans C.rays → ∃ D, dual C = .ok D ∧ D.vertex = C.vertex ∧ D.facets = C.rays ∧
    IsRayList (Polar C.rays) D.rays [] ∧ D.subspace = [] ∧ D.equalities = []) ∧
  ∀ C : GCone n, C.facets ≠ [] → dual C = .ok C.swap

theorem dualOk_4ti2 (alg : Rays) (ha : RaysOk alg) : DualOk (n := n) (Ti2.dualizeCone alg) := by
  refine ⟨fun C hf hs he hsp => ?_, fun C hf => by unfold Ti2.dualizeCone; rw [if_pos hf]⟩
  obtain ⟨D, hD⟩ := (c84_ends_partial alg C hf hs).2 (by
    rintro ⟨-, y, hy, hz⟩
    exact hy (hsp y hz))
  obtain ⟨h1, h2, h3, h4⟩ := c84_dualize alg ha C D hf he hD
  have h5 := (c84_subspace alg ha C D hf he hD).2 hsp
  rw [h5] at h4
  exact ⟨D, hD, h1, h2, h4, h5, h3.trans hs⟩

theorem filter_all {α : Type} (l : List (Bool × α)) (h : l.filter (fun p => p.1) = []) : l.filter (fun p => !p.1) = l := by
  rw [List.filter_eq_nil_iff] at h
  rw [List.filter_eq_self]
  intro p hp
  have := h p hp
  simpa using this

/-- The rows when the rays span the space. -/
theorem cdd_rows (cdd : ConeCdd n) (hc : ConeCddOk cdd) (R : List (Vec n)) (hsp : Spans R) :
    IsRayList (Polar R) ((cdd (R.map fun r => -r)).map fun row => facetOf row.2) [] := by
  obtain ⟨rays, sub, hl, hr, hs⟩ := hc (R.map fun r => -r)
  rw [neg_cone] at hl
  have hsub : sub = [] := by
    by_contra hne
    have hpos : 0 < sub.length := List.length_pos_iff.2 hne
    have h1 : toR (sub.get ⟨0, hpos⟩) ∈ Lineality (Polar R) := (hl.basis _).2 (Submodule.subset_span ⟨⟨0, hpos⟩, rfl⟩)
    exact hl.independent.ne_zero ⟨0, hpos⟩ (hsp _ ((lin_polar_iff _).1 h1))
  rw [hsub] at hl hs
  rw [List.forall₂_nil_right_iff, List.map_eq_nil_iff] at hs
  rw [filter_all _ hs] at hr
  refine rayList_posMul (polar_smul R) hl ?_
  rw [List.forall₂_map_left_iff] at hr
  rw [List.forall₂_map_right_iff]
  exact hr.flip.imp fun r row h => facetOf_multiple row.2 r h

/-- The simplicial case is the same with both programs. -/
theorem simplicial_case (cdd : ConeCdd n) (alg : Rays) (C : GCone n) (hl : C.rays.length = n) : dualizeConeCdd cdd C = Ti2.dualizeCone alg C := by
  unfold dualizeConeCdd Ti2.dualizeCone
  by_cases hf : C.facets ≠ []
  · rw [if_pos hf, if_pos hf]
  · rw [if_neg hf, if_neg hf, if_pos hl, if_pos hl]
    rfl

/-- **C90, dualization with cdd.** A cone given by rays that span the space becomes its polar cone: the old rays are its facets, its rays are the extreme rays of the
polar cone, each once; the vertex is kept.  A cone with facets is dualized by exchanging rays and facets. -/
theorem c90_dualize (cdd : ConeCdd n) (hc : ConeCddOk cdd) : DualOk (dualizeConeCdd cdd) := by
  obtain ⟨alg, ha⟩ := raysOk_satisfiable
  refine ⟨fun C hf hs he hsp => ?_, fun C hf => by unfold dualizeConeCdd; rw [if_pos hf]⟩
  by_cases hl : C.rays.length = n
  · rw [simplicial_case cdd alg C hl]
    exact (dualOk_4ti2 alg ha).1 C hf hs he hsp
  · refine ⟨{ C with rays := (cdd (C.rays.map fun r => -r)).map fun row => facetOf row.2, facets := C.rays }, ?_, rfl, rfl, cdd_rows cdd hc C.rays hsp, hs, he⟩
    unfold dualizeConeCdd
    rw [if_neg (by simp [hf]), if_neg hl]
    unfold dualizeWithCdd
    rw [if_neg (by simp [hs])]

/-- **C90, the dual cone as a set.** -/
theorem c90_sets (cdd : ConeCdd n) (hc : ConeCddOk cdd) (C D : GCone n) (hf : C.facets = []) (hs : C.subspace = []) (he : C.equalities = []) (hsp : Spans C.rays)
    (h : dualizeConeCdd cdd C = .ok D) :
    (∀ y : Fin n → ℝ, (∀ r ∈ C.rays, dot r y ≤ 0) ↔ y ∈ generated D.rays) ∧ ∀ x : Fin n → ℝ, x ∈ generated C.rays ↔ ∀ f ∈ D.rays, dot f x ≤ 0 := by
  obtain ⟨D', h', -, -, hr, -⟩ := (c90_dualize cdd hc).1 C hf hs he hsp
  rw [h] at h'
  obtain rfl := Except.ok.inj h'
  refine ⟨fun y => ?_, fun x => ?_⟩
  · show y ∈ Polar C.rays ↔ _
    rw [polar_generated hr]
    constructor
    · rintro ⟨u, hu, w, hw, rfl⟩
      rw [range_get] at hw
      have : w = 0 := by simpa using hw
      rw [this, add_zero]
      exact hu
    · intro hy
      exact ⟨y, hy, 0, Submodule.zero_mem _, by rw [add_zero]⟩
  · rw [bipolar hr]
    simp

/-- **C90, dualizing twice.** The second dualization gives the cone back, with its facets filled in. -/
theorem c90_twice (cdd : ConeCdd n) (hc : ConeCddOk cdd) (C D : GCone n) (hf : C.facets = []) (hs : C.subspace = []) (he : C.equalities = []) (hr : C.rays ≠ [])
    (hsp : Spans C.rays) (h : dualizeConeCdd cdd C = .ok D) : dualizeConeCdd cdd D = .ok { C with facets := D.rays } := by
  obtain ⟨D', h', h1, h2, -, h3, h4⟩ := (c90_dualize cdd hc).1 C hf hs he hsp
  rw [h] at h'
  obtain rfl := Except.ok.inj h'
  rw [(c90_dualize cdd hc).2 D (by rw [h2]; exact hr)]
  unfold GCone.swap
  rw [h1, h2, h3, h4]
  obtain ⟨v, r, f, s, e⟩ := C
  subst hs he
  rfl

/-- **C90, violation.** If the rays do not span the space and there are not as many of them as coordinates, the rays of the result do not generate the polar cone: the
lines that cdd lists are taken for rays. -/
theorem c90_lines_violation (cdd : ConeCdd n) (hc : ConeCddOk cdd) (C : GCone n) (hf : C.facets = []) (hs : C.subspace = []) (hl : C.rays.length ≠ n)
    (hsp : ¬ Spans C.rays) : ∃ D, dualizeConeCdd cdd C = .ok D ∧ D.subspace = [] ∧ generated D.rays ≠ {y : Fin n → ℝ | ∀ r ∈ C.rays, dot r y ≤ 0} := by
  refine ⟨{ C with rays := (cdd (C.rays.map fun r => -r)).map fun row => facetOf row.2, facets := C.rays }, ?_, hs, ?_⟩
  · unfold dualizeConeCdd
    rw [if_neg (by simp [hf]), if_neg hl]
    unfold dualizeWithCdd
    rw [if_neg (by simp [hs])]
  · obtain ⟨rays, sub, hli, hr, hsu⟩ := hc (C.rays.map fun r => -r)
    rw [neg_cone] at hli
    have hne : sub ≠ [] := by
      rintro rfl
      refine hsp fun d hd => ?_
      have h1 := (hli.basis d).1 ((lin_polar_iff d).2 hd)
      rw [range_get] at h1
      simpa using h1
    have hpos : 0 < sub.length := List.length_pos_iff.2 hne
    obtain ⟨φ, hφ⟩ : ∃ φ : (Fin n → ℝ) →ₗ[ℝ] ℝ, ∀ i : Fin sub.length, φ (toR (sub.get i)) = 1 := by
      let b := Module.Basis.span hli.independent
      obtain ⟨φ, hφ⟩ := LinearMap.exists_extend (b.constr ℝ fun _ => (1 : ℝ))
      refine ⟨φ, fun i => ?_⟩
      have h1 := b.constr_basis ℝ (fun _ => (1 : ℝ)) i
      rw [← hφ, LinearMap.comp_apply, Module.Basis.span_apply] at h1
      exact h1
    have hlin : ∀ i : Fin sub.length, toR (sub.get i) ∈ Lineality (Polar C.rays) := fun i => (hli.basis _).2 (Submodule.subset_span ⟨i, rfl⟩)
    have hkind : ∀ f ∈ (cdd (C.rays.map fun r => -r)).map fun row => (facetOf row.2 : Vec n),
        toR f ∈ Polar C.rays ∧ (-toR f ∉ Polar C.rays ∨ 0 ≤ φ (toR f)) := by
      intro f hf
      obtain ⟨row, hrow, rfl⟩ := List.mem_map.1 hf
      by_cases hb : row.1 = true
      · have h1 : row.2 ∈ ((cdd (C.rays.map fun r => -r)).filter fun p => p.1).map (·.2) :=
          List.mem_map_of_mem (List.mem_filter.2 ⟨hrow, hb⟩)
        obtain ⟨i, hi, e⟩ := List.getElem_of_mem h1
        have h2 := (List.forall₂_iff_get.1 hsu).2 i hi (by rw [← hsu.length_eq]; exact hi)
        rw [List.get_eq_getElem, e] at h2
        obtain ⟨c, hc, e'⟩ := facetOf_multiple _ _ h2
        rw [e']
        refine ⟨polar_smul _ c hc _ (hlin _).1, Or.inr ?_⟩
        rw [map_smul, hφ, smul_eq_mul, mul_one]
        exact hc.le
      · have h1 : row.2 ∈ ((cdd (C.rays.map fun r => -r)).filter fun p => !p.1).map (·.2) :=
          List.mem_map_of_mem (List.mem_filter.2 ⟨hrow, by simpa using hb⟩)
        obtain ⟨i, hi, e⟩ := List.getElem_of_mem h1
        have h2 := (List.forall₂_iff_get.1 hr).2 i hi (by rw [← hr.length_eq]; exact hi)
        rw [List.get_eq_getElem, e] at h2
        obtain ⟨c, hc, e'⟩ := facetOf_multiple _ _ h2
        rw [e']
        have h3 := extreme_smul (polar_smul C.rays) hc (hli.extreme _ (List.get_mem rays ⟨i, by rw [← hr.length_eq]; exact hi⟩))
        exact ⟨h3.1, Or.inl h3.2.1⟩
    intro heq
    have hm : -toR (sub.get ⟨0, hpos⟩) ∈ Polar C.rays := (hlin ⟨0, hpos⟩).2
    have hm' : -toR (sub.get ⟨0, hpos⟩) ∈ generated ((cdd (C.rays.map fun r => -r)).map fun row => (facetOf row.2 : Vec n)) := by
      have : generated ((cdd (C.rays.map fun r => -r)).map fun row => (facetOf row.2 : Vec n)) = Polar C.rays := heq
      rw [this]
      exact hm
    set L := (cdd (C.rays.map fun r => -r)).map fun row => (facetOf row.2 : Vec n) with hL
    obtain ⟨c, hc0, -, hx⟩ := hm'
    have hx' : -toR (sub.get ⟨0, hpos⟩) = ∑ i : Fin L.length, c i • toR (L.get i) := by
      funext k
      rw [hx k, Finset.sum_apply]
      rfl
    have hzero : ∀ i : Fin L.length, 0 ≤ c i * φ (toR (L.get i)) := by
      intro i
      obtain ⟨-, h | h⟩ := hkind _ (List.get_mem L i)
      · by_cases h0 : c i = 0
        · rw [h0, zero_mul]
        · exfalso
          have hci : 0 < c i := lt_of_le_of_ne (hc0 i) (Ne.symm h0)
          apply h
          have h1 : c i • -toR (L.get i) = toR (sub.get ⟨0, hpos⟩) + ∑ j ∈ Finset.univ.erase i, c j • toR (L.get j) := by
            have h2 := Finset.add_sum_erase Finset.univ (fun j : Fin L.length => c j • toR (L.get j)) (Finset.mem_univ i)
            rw [← hx'] at h2
            rw [smul_neg, eq_sub_iff_add_eq.2 h2]
            abel
          have h2 : c i • -toR (L.get i) ∈ Polar C.rays := by
            rw [h1]
            intro r hr'
            have e : dot r (toR (sub.get ⟨0, hpos⟩) + ∑ j ∈ Finset.univ.erase i, c j • toR (L.get j)) =
                dot r (toR (sub.get ⟨0, hpos⟩)) + ∑ j ∈ Finset.univ.erase i, c j * dot r (toR (L.get j)) := by
              unfold dot
              simp only [Pi.add_apply, Finset.sum_apply, Pi.smul_apply, smul_eq_mul, mul_add, Finset.sum_add_distrib, Finset.mul_sum]
              rw [Finset.sum_comm]
              congr 1
              refine Finset.sum_congr rfl fun j _ => Finset.sum_congr rfl fun k _ => by ring
            rw [e]
            refine add_nonpos ((hlin ⟨0, hpos⟩).1 r hr') (Finset.sum_nonpos fun j _ => ?_)
            exact mul_nonpos_of_nonneg_of_nonpos (hc0 j) ((hkind _ (List.get_mem L j)).1 r hr')
          have h3 := polar_smul C.rays (c i)⁻¹ (inv_pos.2 hci) _ h2
          rwa [smul_smul, inv_mul_cancel₀ h0, one_smul] at h3
      · exact mul_nonneg (hc0 i) h
    have h1 := congrArg φ hx'
    rw [map_neg, hφ, map_sum] at h1
    simp only [map_smul, smul_eq_mul] at h1
    have := Finset.sum_nonneg fun (i : Fin L.length) (_ : i ∈ Finset.univ) => hzero i
    linarith

/-- **The contract of cdd can be met.** -/
theorem coneCddOk_satisfiable : ∃ cdd : ConeCdd n, ConeCddOk cdd := by
  obtain ⟨alg, ha⟩ := raysOk_satisfiable
  let F : List (Vec n) → List (Vec n) := fun R => listVectors (alg R.length (R.length + n) (dualMatrix R) (slackBits R.length n)).1
  let S : List (Vec n) → List (Vec n) := fun R => listVectors (alg R.length (R.length + n) (dualMatrix R) (slackBits R.length n)).2
  let row : Vec n → List ℚ := fun r => 0 :: List.ofFn fun k => (1 : ℚ) * (r k : ℚ)
  refine ⟨fun A => ((S (A.map fun r => -r)).map fun r => (true, row r)) ++ (F (A.map fun r => -r)).map fun r => (false, row r), fun A => ?_⟩
  refine ⟨F (A.map fun r => -r), S (A.map fun r => -r), ?_, ?_, ?_⟩
  · have h := rayList_polar (R := A.map fun r => -r) (ha _ _ (dualMatrix _) (slackBits _ n))
    have e : A = (A.map fun r => -r).map fun r => -r := by simp
    conv => arg 1; rw [e]
    rw [neg_cone]
    exact h
  · have : ((((S (A.map fun r => -r)).map fun r => (true, row r)) ++ (F (A.map fun r => -r)).map fun r => (false, row r)).filter fun p => !p.1).map (·.2) =
        (F (A.map fun r => -r)).map row := by
      rw [List.filter_append, List.filter_map, List.filter_map]
      simp [Function.comp_def]
    rw [this, List.forall₂_map_left_iff, List.forall₂_same]
    exact fun r _ => ⟨1, one_pos, rfl⟩
  · have : ((((S (A.map fun r => -r)).map fun r => (true, row r)) ++ (F (A.map fun r => -r)).map fun r => (false, row r)).filter fun p => p.1).map (·.2) =
        (S (A.map fun r => -r)).map row := by
      rw [List.filter_append, List.filter_map, List.filter_map]
      simp [Function.comp_def]
    rw [this, List.forall₂_map_left_iff, List.forall₂_same]
    exact fun r _ => ⟨1, one_pos, rfl⟩

end Verif.Vrep
