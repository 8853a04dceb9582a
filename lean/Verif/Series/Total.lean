import Verif.Series.Count
import Verif.Series.Trace
import Verif.PolySubst.Brion
import Verif.Brion.Ehrhart

/-!
# C73: the Ehrhart series (`count --ehrhart-taylor=N`)
-/

namespace Verif.Series

open PowerSeries
open Verif.PolySubst (wz psiHom den' tenPowerConst)
open Verif.ExpSubst (Lat LP act mono emb ip negligible Ready delivered decompositionList coneInd gf)
open Verif.Barvinok (Cone Mat Vec Ntl Variant rel polar)
open Verif.Barvinok.Spec (ind cone dot)
open Verif.Brion (Triangulation coneOf LatticePoints dilate)

variable {N m : ℕ}

/-! ### Specification -/

/-- **Specification.** The normals of the cone over the polytope `{x | aᵢ · x ≤ bᵢ}`: its points are the `(x, h)` with `aᵢ · x ≤ h bᵢ`. -/
def homog (a : Fin N → Vec m) (b : Fin N → ℤ) (i : Fin N) : Vec (m + 1) := Fin.snoc (a i) (-b i)

/-- **Specification.** No ray is at height zero and orthogonal to the vector. -/
def GenericSeries (lam : Vec (m + 1)) (D : List (Cone (m + 1))) : Prop :=
  ∀ C ∈ D, ∀ i, ¬ (∑ k : Fin m, C.rays i k.castSucc * lam k.castSucc = 0 ∧ C.rays i (Fin.last m) = 0)

/-! ### The cones -/

theorem unimodular_act (X : Smith.Xgcd) (fuel : ℕ) (C : Cone (m + 1)) (hC : Ready fuel C) (hv : C.vertex = 0) (hdet : |C.determinant| = 1) :
    act (den' (List.ofFn fun i => C.rays i)) (coneInd C.rays C.vertex) = emb 1 := by
  obtain ⟨F, hF, hG⟩ := hC.facets
  obtain ⟨pts, h1, h2, h3, h4⟩ := Piped.c13_points_exact X (ExpSubst.pipedInput C F) hG hC.small fuel hC.fuel
  have hd : C.determinant = C.rays.det := hG.det
  have h3' : (pts.length : ℤ) = |C.rays.det| := h3
  rw [← hd, hdet] at h3'
  obtain ⟨p, rfl⟩ : ∃ p, pts = [p] := List.length_eq_one_iff.1 (by exact_mod_cast h3')
  have h0 : (0 : Vec (m + 1)) ∈ [p] := by
    rw [h4, ExpSubst.pipedInput_vertex, hv]
    exact ⟨fun _ => 0, fun i => by simp, fun k => by simp⟩
  obtain rfl : 0 = p := List.mem_singleton.1 h0
  rw [PolySubst.den'_ofFn, ExpSubst.act_cone C F hG [0] (by simp) fun p => by rw [h4, ExpSubst.pipedInput_vertex]; rfl]
  congr 1
  simp [gf, ExpSubst.mono_zero]

/-- The vector without its last entry. -/
def initVec (lam : Vec (m + 1)) : Lat m := fun k => lam k.castSucc

theorem valHom_den (lam : Vec (m + 1)) (C : Cone (m + 1)) :
    valHom (psiHom (initVec lam)) (den' (List.ofFn fun i => C.rays i)) = ((coneGens lam C).map factor).prod := by
  unfold den' coneGens
  rw [map_list_prod, List.map_map, List.map_ofFn, List.map_ofFn]
  congr 2
  funext i
  simp only [Function.comp]
  rw [map_sub, map_one]
  unfold factor
  congr 1
  show val _ (mono _) = _
  rw [val_mono]
  unfold readGen monVal
  congr 1
  show wz (ip _ _) = wz _
  congr 1
  exact Finset.sum_congr rfl fun k _ => mul_comm _ _

/-! ### All cones of a round -/

/-- What is known about a cone with its series. -/
structure TermOk (lam : Vec (m + 1)) (t : Cone (m + 1) × PowerSeries (PowerSeries ℚ) × ℤ) : Prop where
  sign : t.2.2 = 1 ∨ t.2.2 = -1
  eq : ((coneGens lam t.1).map factor).prod * ((t.2.2 : HahnSeries ℤ (PowerSeries ℚ)) * tau t.2.1) =
        (t.1.coefficient : HahnSeries ℤ (PowerSeries ℚ)) * (HahnSeries.C X) ^ poleOrder (coneGens lam t.1)

/-- The pool between two cones. -/
structure PoolOk (m degree : ℕ) (p : Pool) : Prop where
  width : p.width = m + 3
  degree : p.degree = degree
  usedP : p.usedP = 0

theorem gens_ok (lam : Vec (m + 1)) (D : List (Cone (m + 1))) (h : GenericSeries lam D) (C : Cone (m + 1)) (hC : C ∈ D) :
    ∀ g ∈ coneGens lam C, ¬ (g.r = 0 ∧ g.t = 0) := by
  intro g hg
  obtain ⟨i, rfl⟩ := List.mem_ofFn.1 hg
  exact h C hC i

theorem acceptSeries_iff (lam : Vec (m + 1)) (C : Cone (m + 1)) : acceptSeries lam C = true ↔
    ∀ i, ¬ (∑ k : Fin m, C.rays i k.castSucc * lam k.castSucc = 0 ∧ C.rays i (Fin.last m) = 0) := by
  unfold acceptSeries
  rw [Bool.not_eq_true', List.any_eq_false]
  constructor
  · intro h i
    have h1 := h _ (List.mem_ofFn.2 ⟨i, rfl⟩)
    simp only [Bool.not_eq_true] at h1
    exact of_decide_eq_false h1
  · intro h g hg
    obtain ⟨i, rfl⟩ := List.mem_ofFn.1 hg
    simp only [Bool.not_eq_true]
    exact decide_eq_false (h i)

theorem totalSeries_spec (junk : ℕ → Ref) (T : ℤ) (degree : ℕ) (hdeg : 1 ≤ degree) (lam : Vec (m + 1)) :
    ∀ (D : List (Cone (m + 1))), (∀ C ∈ D, Signed 0 1 C) → GenericSeries lam D → ∀ (acc : PolySubst.Arr) (p : Pool), PoolOk m degree p →
    ∃ (L : List (Cone (m + 1) × PowerSeries (PowerSeries ℚ) × ℤ)) (p' : Pool), L.map (·.1) = D ∧ (∀ t ∈ L, TermOk lam t) ∧ PoolOk m degree p' ∧
      totalSeries junk T degree lam D acc p = .ok (fun k => if k ≤ degree then
        acc k + (L.map fun t => t.2.2 * ⌊(T : ℚ) * coeff k (coeff (poleOrder (coneGens lam t.1)) t.2.1)⌋).sum else acc k, p') := by
  intro D
  induction D with
  | nil =>
    intro _ _ acc p hp
    exact ⟨[], p, rfl, by simp, hp, by simp [totalSeries]⟩
  | cons C D ih =>
    intro hD hgen acc p hp
    have hC := hD C List.mem_cons_self
    have hdet : |C.determinant| = 1 := by
      have h1 := hC.index.2
      have h2 := abs_pos.2 hC.index.1
      omega
    obtain ⟨q, σ, p1, e1, e2, e3, e4, e5, e6⟩ := residueFunctionSingle_spec junk T degree hdeg lam C hC.vertex hdet hC.coefficient
      (gens_ok lam _ hgen C List.mem_cons_self) acc p hp.width hp.degree hp.usedP
    obtain ⟨L, p', h1, h2, h3, h4⟩ := ih (fun C hC => hD C (List.mem_cons_of_mem _ hC)) (fun C hC => hgen C (List.mem_cons_of_mem _ hC))
      (fun k => if k ≤ degree then acc k + σ * ⌊(T : ℚ) * coeff k (coeff (poleOrder (coneGens lam C)) q)⌋ else acc k) p1 ⟨e2, e3, e4⟩
    refine ⟨(C, q, σ) :: L, p', by rw [List.map_cons, h1], ?_, h3, ?_⟩
    · intro t ht
      rcases List.mem_cons.1 ht with rfl | ht
      · exact ⟨e1, e6⟩
      · exact h2 t ht
    · unfold totalSeries
      rw [e5]
      dsimp only
      rw [h4]
      congr 2
      funext k
      by_cases hk : k ≤ degree
      · simp only [if_pos hk, List.map_cons, List.sum_cons, add_assoc]
      · simp only [if_neg hk]

/-! ### The generating function of the cone over the polytope -/

section
open scoped Classical in
/-- The indicator function of the cone over the polytope. -/
noncomputable def overInd (a : Fin N → Vec m) (b : Fin N → ℤ) (z : Lat (m + 1)) : ℚ :=
  if ∀ i, ∑ k : Fin m, a i k * z k.castSucc ≤ z (Fin.last m) * b i then 1 else 0

theorem homog_dot (a : Fin N → Vec m) (b : Fin N → ℤ) (i : Fin N) (z : Lat (m + 1)) :
    ∑ k, homog a b i k * z k = ∑ k : Fin m, a i k * z k.castSucc - z (Fin.last m) * b i := by
  rw [Fin.sum_univ_castSucc]
  simp only [homog, Fin.snoc_castSucc, Fin.snoc_last]
  ring

theorem overInd_ne (a : Fin N → Vec m) (b : Fin N → ℤ) (z : Lat (m + 1)) :
    overInd a b z ≠ 0 ↔ ∀ i, ∑ k : Fin m, a i k * z k.castSucc ≤ z (Fin.last m) * b i := by
  unfold overInd
  split_ifs with h <;> simp [h]

theorem mem_iff (a : Fin N → Vec m) (b : Fin N → ℤ) (n : ℕ) (S : List (Vec m)) (hS : LatticePoints a (dilate n fun i => (b i : ℚ)) S) (x : Vec m) :
    x ∈ S ↔ ∀ i, ∑ k, a i k * x k ≤ n * b i := by
  rw [hS.mem]
  refine forall_congr' fun i => ?_
  unfold dilate
  have : (∑ k, (a i k : ℚ) * (x k : ℚ) ≤ (n : ℚ) * (b i : ℚ)) ↔ ((∑ k, a i k * x k : ℤ) : ℚ) ≤ ((n * b i : ℤ) : ℚ) := by push_cast; rfl
  rw [this]
  exact Int.cast_le

theorem dot_cast' (f z : Vec (m + 1)) : dot f (rel z 0) = ((∑ k, f k * z k : ℤ) : ℝ) := by
  unfold dot rel
  push_cast
  exact Finset.sum_congr rfl fun k _ => by simp

/-- A polytope that is bounded (the zeroth dilation has finitely many lattice points) and not empty lies over positive heights. -/
theorem nonneg_height (a : Fin N → Vec m) (b : Fin N → ℤ) (S0 : List (Vec m)) (hS0 : LatticePoints a (dilate 0 fun i => (b i : ℚ)) S0)
    (hne : ∃ p : Fin m → ℚ, ∀ i, ∑ k, (a i k : ℚ) * p k ≤ b i) (T : List (Mat (m + 1))) (hT : Triangulation T (coneOf (homog a b) Set.univ))
    (z : Lat (m + 1)) (hz : ∀ i, ∑ k : Fin m, a i k * z k.castSucc ≤ z (Fin.last m) * b i) : 0 ≤ z (Fin.last m) := by
  by_contra hneg
  push Not at hneg
  obtain ⟨p, hp⟩ := hne
  -- an integral multiple
  obtain ⟨K, hK, q, hq⟩ : ∃ K : ℤ, 0 < K ∧ ∃ q : Vec m, ∀ k, (q k : ℚ) = K * p k := by
    refine ⟨∏ k, ((p k).den : ℤ), Finset.prod_pos fun k _ => by exact_mod_cast (p k).den_pos,
      fun k => (∏ j ∈ Finset.univ.erase k, ((p j).den : ℤ)) * (p k).num, fun k => ?_⟩
    rw [← Finset.mul_prod_erase _ _ (Finset.mem_univ k)]
    push_cast
    have := Rat.mul_den_eq_num (p k)
    rw [← this]
    ring
  have hqi : ∀ i, ∑ k, a i k * q k ≤ K * b i := by
    intro i
    have h1 := mul_le_mul_of_nonneg_left (hp i) (by exact_mod_cast hK.le : (0 : ℚ) ≤ (K : ℚ))
    rw [Finset.mul_sum] at h1
    have h2 : ∑ k, (K : ℚ) * ((a i k : ℚ) * p k) = ((∑ k, a i k * q k : ℤ) : ℚ) := by
      push_cast
      exact Finset.sum_congr rfl fun k _ => by rw [hq k]; ring
    rw [h2] at h1
    exact_mod_cast h1
  set h := z (Fin.last m) with hh
  let w : Vec m := fun k => -h * q k + K * z k.castSucc
  have hwsum : ∀ i, ∑ k, a i k * w k = -h * (∑ k, a i k * q k) + K * (∑ k : Fin m, a i k * z k.castSucc) := by
    intro i
    rw [Finset.mul_sum, Finset.mul_sum, ← Finset.sum_add_distrib]
    exact Finset.sum_congr rfl fun k _ => by simp only [w]; ring
  have hw : ∀ i, ∑ k, a i k * w k ≤ 0 := by
    intro i
    rw [hwsum]
    nlinarith [hqi i, hz i]
  -- the multiples of `w` are lattice points of the zeroth dilation
  have hw0 : w = 0 := by
    by_contra hw0
    have hinj : Function.Injective fun j : ℕ => (fun k => (j : ℤ) * w k : Vec m) := by
      intro j j' e
      obtain ⟨k, hk⟩ : ∃ k, w k ≠ 0 := by
        by_contra hall
        push Not at hall
        exact hw0 (funext hall)
      have := congrFun e k
      exact_mod_cast mul_right_cancel₀ hk this
    refine Set.infinite_range_of_injective hinj ((S0.finite_toSet).subset ?_)
    rintro _ ⟨j, rfl⟩
    show _ ∈ S0
    rw [mem_iff a b 0 S0 hS0]
    intro i
    have : ∑ k, a i k * ((j : ℤ) * w k) = j * ∑ k, a i k * w k := by
      rw [Finset.mul_sum]
      exact Finset.sum_congr rfl fun k _ => by ring
    rw [this]
    have := mul_nonpos_of_nonneg_of_nonpos (Int.natCast_nonneg j) (hw i)
    simpa using this
  have heq : ∀ i, ∑ k, homog a b i k * z k = 0 := by
    intro i
    rw [homog_dot]
    have h1 := hwsum i
    rw [hw0] at h1
    simp only [Pi.zero_apply, mul_zero, Finset.sum_const_zero] at h1
    have h2 := hqi i
    have h3 := hz i
    have : K * (∑ k : Fin m, a i k * z k.castSucc - z (Fin.last m) * b i) = 0 := by
      apply le_antisymm
      · nlinarith
      · nlinarith
    rcases mul_eq_zero.1 this with h | h
    · omega
    · exact h
  -- so the cone contains a line
  obtain ⟨B, hB, -⟩ := (hT.covers 0).1 ⟨fun _ => 0, by simp, by simp, by simp⟩
  have hrow : ∀ i, ∑ k, B i k * z k = 0 := by
    intro i
    have hmem : (fun k => (B i k : ℝ)) ∈ cone B := by
      classical
      refine ⟨Pi.single i 1, fun j => ?_, ?_⟩
      · rw [Pi.single_apply]; split_ifs <;> norm_num
      · funext k
        unfold Barvinok.Spec.comb
        rw [Finset.sum_eq_single i (by intro j _ hj; simp [hj]) (by simp)]
        simp
    obtain ⟨c, -, -, hc⟩ := (hT.covers _).2 ⟨B, hB, hmem⟩
    have : ((∑ k, B i k * z k : ℤ) : ℝ) = 0 := by
      push_cast
      have : ∀ k, (B i k : ℝ) * (z k : ℝ) = ∑ j, c j * ((homog a b j k : ℝ) * (z k : ℝ)) := by
        intro k
        rw [show (B i k : ℝ) = _ from hc k, Finset.sum_mul]
        exact Finset.sum_congr rfl fun j _ => by ring
      rw [Finset.sum_congr rfl fun k _ => this k, Finset.sum_comm]
      refine Finset.sum_eq_zero fun j _ => ?_
      rw [← Finset.mul_sum]
      have := heq j
      have e : ((∑ k, homog a b j k * z k : ℤ) : ℝ) = 0 := by rw [this]; simp
      push_cast at e
      rw [e, mul_zero]
    exact_mod_cast this
  have hz0 : z = 0 := by
    have hmul : B.mulVec z = 0 := funext hrow
    exact Matrix.eq_zero_of_mulVec_eq_zero (hT.simplicial B hB) hmul
  rw [hh, hz0] at hneg
  simp at hneg

theorem overInd_tame (a : Fin N → Vec m) (b : Fin N → ℤ) (S : ℕ → List (Vec m)) (hS : ∀ n, LatticePoints a (dilate n fun i => (b i : ℚ)) (S n))
    (hpos : ∀ z : Lat (m + 1), (∀ i, ∑ k : Fin m, a i k * z k.castSucc ≤ z (Fin.last m) * b i) → 0 ≤ z (Fin.last m)) : overInd a b ∈ tame m := by
  have hh : ∀ (x : Lat m) (h : ℤ), overInd a b (at' x h) ≠ 0 → 0 ≤ h := by
    intro x h hx
    have := hpos _ ((overInd_ne a b _).1 hx)
    rwa [at'_last] at this
  refine ⟨⟨0, hh⟩, fun h => ?_⟩
  by_cases hn : 0 ≤ h
  · refine (S h.toNat).finite_toSet.subset fun x hx => ?_
    have hx' := (overInd_ne a b _).1 hx
    show x ∈ S h.toNat
    rw [mem_iff a b _ _ (hS _)]
    intro i
    have := hx' i
    rw [at'_last] at this
    simp only [at'_cast] at this
    rwa [Int.toNat_of_nonneg hn]
  · have : {x : Lat m | overInd a b (at' x h) ≠ 0} = ∅ := by
      ext x
      simp only [Set.mem_ofPred_eq, Set.mem_empty_iff_false, iff_false]
      exact fun hx => hn (hh x h hx)
    rw [this]
    exact Set.finite_empty

theorem overInd_slice (a : Fin N → Vec m) (b : Fin N → ℤ) (n : ℕ) (S : List (Vec m)) (hS : LatticePoints a (dilate n fun i => (b i : ℚ)) S)
    (lam : Lat m) : constantCoeff (slice (psiHom lam) (overInd a b) n) = (S.length : ℚ) := by
  have hval : ∀ x : Lat m, overInd a b (at' x n) = if x ∈ S then 1 else 0 := by
    intro x
    unfold overInd
    have : (∀ i, ∑ k : Fin m, a i k * at' x n k.castSucc ≤ at' x n (Fin.last m) * b i) ↔ x ∈ S := by
      rw [mem_iff a b n S hS, at'_last]
      simp only [at'_cast]
    simp only [this]
  unfold slice
  rw [finsum_eq_sum_of_support_subset (s := S.toFinset) _ (fun x hx => by
    rw [List.coe_toFinset]
    by_contra h0
    refine hx ?_
    show overInd a b (at' x n) • _ = _
    rw [hval, if_neg (show ¬ x ∈ S from h0), zero_smul]), map_sum]
  have : ∀ x ∈ S.toFinset, constantCoeff (overInd a b (at' x (n : ℤ)) • psiHom lam (Multiplicative.ofAdd x)) = 1 := by
    intro x hx
    rw [hval, if_pos (List.mem_toFinset.1 hx), one_smul]
    exact PolySubst.constCoeff_wz _
  rw [Finset.sum_congr rfl this, Finset.sum_const, List.toFinset_card_of_nodup hS.nodup]
  simp

/-- The delivered cones add up to the cone over the polytope. -/
theorem delivered_over (N' : Ntl (m + 1)) (hN : N'.Ok) (X : Smith.Xgcd) (irr : Cone (m + 1) → Fin (m + 1) → ℚ) (a : Fin N → Vec m) (b : Fin N → ℤ)
    (T : List (Mat (m + 1))) (hT : Triangulation T (coneOf (homog a b) Set.univ)) (D : List (Cone (m + 1)))
    (hD : delivered N' .dual irr 1 [(0, T)] = some D) : ∃ g ∈ negligible (m + 1), ∀ z,
      (((D.map fun C => C.coefficient * ind (cone C.rays) (rel z C.vertex)).sum : ℤ) : ℚ) = overInd a b z + g z := by
  have hp := Brion.polar_sum (homog a b) Set.univ T hT
  have hg := ExpSubst.restrict_negligible (0 : Fin (m + 1) → ℚ) hp
  have hready := PolySubst.delivered_ready N' hN .dual irr 1 (by norm_num) (by decide) 2 (by norm_num) _ D hD
  obtain ⟨lam, hlam⟩ := ExpSubst.c42_generic_exists _ D hready
  unfold delivered at hD
  split at hD
  · rename_i out md hrun
    cases hD
    obtain ⟨new, e, a1, -⟩ := ExpSubst.list_follows N' Variant.dual.mode 1 (fun C => ExpSubst.acceptExp X lam 2 C) .dual irr _ [] 0 _ _ hrun
    rw [List.nil_append] at e
    subst e
    have hrun' := a1 fun C hC => (ExpSubst.accept_iff X lam _ C (hready C hC)).2 (hlam C hC)
    obtain ⟨new, e, hgood⟩ := ExpSubst.decompositionList_good N' hN X .dual irr (by intro h; cases h) 1 (by norm_num) (by decide) 2 (by norm_num) lam _
      [] 0 hrun'
    rw [List.nil_append] at e
    subst e
    refine ⟨_, Submodule.add_mem _ hg hgood.sum, fun z => ?_⟩
    have hover : ind {y | ∀ i ∈ Set.univ, dot (homog a b i) y ≤ 0} (rel z 0) = overInd a b z := by
      unfold ind overInd
      have : (rel z 0 ∈ {y | ∀ i ∈ Set.univ, dot (homog a b i) y ≤ 0}) ↔
          ∀ i, ∑ k : Fin m, a i k * z k.castSucc ≤ z (Fin.last m) * b i := by
        constructor
        · intro h i
          have h1 : dot (homog a b i) (rel z 0) ≤ 0 := h i (Set.mem_univ _)
          rw [dot_cast', homog_dot] at h1
          have : ((∑ k : Fin m, a i k * z k.castSucc - z (Fin.last m) * b i : ℤ)) ≤ 0 := by exact_mod_cast h1
          omega
        · intro h i _
          rw [dot_cast', homog_dot]
          have := h i
          have : ((∑ k : Fin m, a i k * z k.castSucc - z (Fin.last m) * b i : ℤ)) ≤ 0 := by omega
          exact_mod_cast this
      simp only [this]
      split_ifs <;> simp
    simp only [Pi.add_apply, List.map_cons, List.map_nil, List.sum_cons, List.sum_nil, add_zero, ExpSubst.inputInd]
    push_cast
    rw [← hover]
    ring
  · cases hD

end

/-- **The exact sum.** -/
theorem exact_heights (lam : Vec (m + 1)) (L : List (Cone (m + 1) × PowerSeries (PowerSeries ℚ) × ℤ)) (hL : ∀ t ∈ L, TermOk lam t)
    (hs : ∀ t ∈ L, Signed 0 1 t.1) (hr : ∀ t ∈ L, Ready 2 t.1) (X : Smith.Xgcd) (a : Fin N → Vec m) (b : Fin N → ℤ) (htame : overInd a b ∈ tame m)
    (g : Lat (m + 1) → ℚ) (hg : g ∈ negligible (m + 1))
    (hsum : ∀ z, ((((L.map (·.1)).map fun C => C.coefficient * ind (cone C.rays) (rel z C.vertex)).sum : ℤ) : ℚ) = overInd a b z + g z)
    (n : ℕ) (S : List (Vec m)) (hS : LatticePoints a (dilate n fun i => (b i : ℚ)) S) :
    (L.map fun t => (t.2.2 : ℚ) * coeff n (coeff (poleOrder (coneGens lam t.1)) t.2.1)).sum = S.length := by
  have hmem : ∀ i : Fin L.length, L[i] ∈ L := fun i => List.getElem_mem i.2
  have key := heights_count (psiHom (initVec lam)) (ι := Fin L.length) (fun i => L[i].1.coefficient)
    (fun i => den' (List.ofFn fun j => L[i].1.rays j)) (fun i => coneInd L[i].1.rays L[i].1.vertex)
    (fun i => by
      have h1 := hs _ (hmem i)
      have h2 := h1.index.2
      have h3 := abs_pos.2 h1.index.1
      exact unimodular_act X 2 L[i].1 (hr _ (hmem i)) h1.vertex (by omega)) (overInd a b) htame g hg (by
    funext z
    have := hsum z
    rw [List.map_map, Int.cast_list_sum, List.map_map] at this
    rw [Pi.add_apply, ← this, Finset.sum_apply, ← List.sum_ofFn]
    congr 1
    refine List.ext_getElem (by simp) fun i h1 h2 => ?_
    simp only [List.getElem_ofFn, List.getElem_map, Function.comp, Pi.smul_apply, smul_eq_mul, coneInd]
    push_cast
    rfl) (fun i => L[i].2.1) (fun i => L[i].2.2) (fun i => poleOrder (coneGens lam L[i].1))
    (fun i => by
      refine (List.length_filter_le _ _).trans ?_
      simp [coneGens])
    (fun i => (hs _ (hmem i)).coefficient) (fun i => by
      rw [valHom_den]
      exact (hL _ (hmem i)).eq) n
  rw [overInd_slice a b n S hS] at key
  rw [key, ← List.sum_ofFn]
  congr 1
  refine List.ext_getElem (by simp) fun i h1 h2 => ?_
  simp

/-! ### Rounding -/

theorem near_sum (T : ℤ) {ι : Type*} (c : ι → ℚ) (σ : ι → ℤ) : ∀ L : List ι, (∀ t ∈ L, σ t = 1 ∨ σ t = -1) →
    |(T : ℚ) * (L.map fun t => (σ t : ℚ) * c t).sum - ((L.map fun t => σ t * ⌊(T : ℚ) * c t⌋).sum : ℤ)| ≤ L.length ∧
    (L ≠ [] → |(T : ℚ) * (L.map fun t => (σ t : ℚ) * c t).sum - ((L.map fun t => σ t * ⌊(T : ℚ) * c t⌋).sum : ℤ)| < L.length) := by
  intro L
  induction L with
  | nil => intro _; simp
  | cons t L ih =>
    intro h
    obtain ⟨h1, -⟩ := ih fun t ht => h t (List.mem_cons_of_mem _ ht)
    have hlt : |(T : ℚ) * ((σ t : ℚ) * c t) - ((σ t * ⌊(T : ℚ) * c t⌋ : ℤ) : ℚ)| < 1 := by
      have e1 := Int.floor_le ((T : ℚ) * c t)
      have e2 := Int.lt_floor_add_one ((T : ℚ) * c t)
      push_cast
      rcases h t List.mem_cons_self with e | e <;> rw [e, abs_lt] <;> push_cast <;> constructor <;> linarith
    have hs : |(T : ℚ) * ((t :: L).map fun t => (σ t : ℚ) * c t).sum - (((t :: L).map fun t => σ t * ⌊(T : ℚ) * c t⌋).sum : ℤ)| < (t :: L).length := by
      rw [List.map_cons, List.sum_cons, List.map_cons, List.sum_cons, List.length_cons]
      have : (T : ℚ) * ((σ t : ℚ) * c t + (L.map fun t => (σ t : ℚ) * c t).sum) -
          ((σ t * ⌊(T : ℚ) * c t⌋ + (L.map fun t => σ t * ⌊(T : ℚ) * c t⌋).sum : ℤ) : ℚ) =
          ((T : ℚ) * ((σ t : ℚ) * c t) - ((σ t * ⌊(T : ℚ) * c t⌋ : ℤ) : ℚ)) +
          ((T : ℚ) * (L.map fun t => (σ t : ℚ) * c t).sum - ((L.map fun t => σ t * ⌊(T : ℚ) * c t⌋).sum : ℤ)) := by
        push_cast
        ring
      rw [this]
      refine (abs_add_le _ _).trans_lt ?_
      rw [Nat.cast_add, Nat.cast_one]
      linarith
    exact ⟨hs.le, fun _ => hs⟩

theorem round_series (r : ℤ) (c : ℤ) (l : ℕ) (hl : l ≤ 5 * 10 ^ 9) (h : |tenPowerConst * c - r| ≤ l)
    (h' : 0 < l → |tenPowerConst * c - r| < l) : (r + tenPowerConst.fdiv 2).fdiv tenPowerConst = c := by
  rw [PolySubst.tenPowerConst_eq] at *
  have e : ((10 : ℤ) ^ 10).fdiv 2 = 5 * 10 ^ 9 := by decide +kernel
  rw [e]
  have hlt : |(10 : ℤ) ^ 10 * c - r| < 5 * 10 ^ 9 := by
    rcases Nat.eq_zero_or_pos l with h0 | h0
    · rw [h0] at h
      refine h.trans_lt ?_
      norm_num
    · have := h' h0
      have h5 : (l : ℤ) ≤ 5 * 10 ^ 9 := by exact_mod_cast hl
      exact this.trans_le h5
  rw [abs_lt] at hlt
  rw [Int.fdiv_eq_ediv_of_nonneg _ (by norm_num)]
  omega

/-! ### The run -/

section
variable (N' : Ntl (m + 1)) (hN : N'.Ok) (irr : Cone (m + 1) → Fin (m + 1) → ℚ) (a : Fin N → Vec m) (b : Fin N → ℤ)
  (T : List (Mat (m + 1))) (D : List (Cone (m + 1)))

include hN in
theorem delivered_signed (hD : delivered N' .dual irr 1 [(0, T)] = some D) : ∀ C ∈ D, Signed 0 1 C := by
  unfold delivered at hD
  split at hD
  · rename_i out md hrun
    cases hD
    have h := trace_list N' hN 1 (by norm_num) (fun _ => true) irr [(0, T)] 0 (by simp) [] 0
    have e : decompositionList ⟨N', Variant.dual.mode, 1, fun _ _ => true⟩ .dual irr [(0, T)] [] 0 = .done true D md := hrun
    have e' : decompositionList ⟨N', .dual, 1, fun _ C => (fun _ => true) C⟩ .dual irr [(0, T)] [] 0 = .done true D md := e
    rw [e'] at h
    obtain ⟨new, e, h⟩ := h
    rw [List.nil_append] at e
    subst e
    exact fun C hC => (h C hC).1
  · cases hD

include hN in
theorem generic_exists (hD : delivered N' .dual irr 1 [(0, T)] = some D) : ∃ lam, GenericSeries lam D := by
  obtain ⟨lam, h⟩ := ExpSubst.c42_generic_vector_exists N' hN .dual irr 1 (by norm_num) (by decide) _ D hD
  refine ⟨lam, fun C hC i ⟨e1, e2⟩ => h C hC i ?_⟩
  rw [Fin.sum_univ_castSucc, e2, mul_zero, add_zero, ← e1]
  exact Finset.sum_congr rfl fun k _ => mul_comm _ _

include hN in
/-- One round with a vector that is not generic. -/
theorem series_reject (hD : delivered N' .dual irr 1 [(0, T)] = some D) (junk : ℕ → Ref) (Tn : ℤ) (degree : ℕ) (hdeg : 1 ≤ degree) (lam : Vec (m + 1))
    (hgen : ¬ GenericSeries lam D) (p : Pool) (hp : PoolOk m degree p) :
    ∃ p', seriesOnce N' .dual irr 1 junk Tn degree [(0, T)] lam p = .ok (none, p') ∧ PoolOk m degree p' := by
  have htr := trace_list N' hN 1 (by norm_num) (fun C => acceptSeries lam C) irr [(0, T)] 0 (by simp) [] 0
  unfold delivered at hD
  split at hD
  · rename_i out md hrun
    cases hD
    obtain ⟨new, e, -, a2⟩ := ExpSubst.list_follows N' Variant.dual.mode 1 (fun C => acceptSeries lam C) .dual irr [(0, T)] [] 0 _ _ hrun
    rw [List.nil_append] at e
    subst e
    unfold GenericSeries at hgen
    push Not at hgen
    obtain ⟨C, hC, i, hi⟩ := hgen
    obtain ⟨o, md2, hrun'⟩ := a2 ⟨C, hC, by
      rw [← Bool.not_eq_true, acceptSeries_iff]
      push Not
      exact ⟨i, hi⟩⟩
    have hrun2 : decompositionList ⟨N', .dual, 1, fun _ C => acceptSeries lam C⟩ .dual irr [(0, T)] [] 0 = .done false o md2 := hrun'
    rw [hrun2] at htr
    obtain ⟨new, E, rfl, h1, -⟩ := htr
    obtain ⟨L, p', -, -, h3, h4⟩ := totalSeries_spec junk Tn degree hdeg lam new (fun C hC => (h1 C hC).1)
      (fun C hC => (acceptSeries_iff lam C).1 (h1 C hC).2) (fun _ => 0) p hp
    refine ⟨p', ?_, h3⟩
    unfold seriesOnce
    simp only [hrun']
    rw [List.nil_append, List.dropLast_concat, h4]
  · cases hD

include hN in
/-- One round with a generic vector: the coefficients are those of the Ehrhart series, multiplied by `T`, up to an error of less than one for every cone. -/
theorem series_accept (X : Smith.Xgcd) (hD : delivered N' .dual irr 1 [(0, T)] = some D) (junk : ℕ → Ref) (Tn : ℤ) (degree : ℕ) (hdeg : 1 ≤ degree)
    (lam : Vec (m + 1)) (hgen : GenericSeries lam D) (p : Pool) (hp : PoolOk m degree p)
    (S : ℕ → List (Vec m)) (hS : ∀ n, LatticePoints a (dilate n fun i => (b i : ℚ)) (S n))
    (hne : ∃ p : Fin m → ℚ, ∀ i, ∑ k, (a i k : ℚ) * p k ≤ b i) (hT : Triangulation T (coneOf (homog a b) Set.univ)) :
    ∃ r p', seriesOnce N' .dual irr 1 junk Tn degree [(0, T)] lam p = .ok (some r, p') ∧ ∀ k ≤ degree,
      |Tn * (S k).length - r k| ≤ D.length ∧ (0 < D.length → |Tn * (S k).length - r k| < D.length) := by
  have hready := PolySubst.delivered_ready N' hN .dual irr 1 (by norm_num) (by decide) 2 (by norm_num) _ D hD
  have hsigned := delivered_signed N' hN irr T D hD
  obtain ⟨g, hg, hind⟩ := delivered_over N' hN X irr a b T hT D hD
  obtain ⟨L, p', h1, h2, -, h4⟩ := totalSeries_spec junk Tn degree hdeg lam D hsigned hgen (fun _ => 0) p hp
  have hmem : ∀ t ∈ L, t.1 ∈ D := fun t ht => h1 ▸ List.mem_map_of_mem ht
  have hex := exact_heights lam L h2 (fun t ht => hsigned _ (hmem t ht)) (fun t ht => hready _ (hmem t ht)) X a b
    (overInd_tame a b S hS fun z hz => nonneg_height a b (S 0) (hS 0) hne T hT z hz) g hg (h1 ▸ hind)
  have hlen : L.length = D.length := by rw [← h1, List.length_map]
  unfold delivered at hD
  split at hD
  · rename_i out md hrun
    cases hD
    obtain ⟨new, e, a1, -⟩ := ExpSubst.list_follows N' Variant.dual.mode 1 (fun C => acceptSeries lam C) .dual irr [(0, T)] [] 0 _ _ hrun
    rw [List.nil_append] at e
    subst e
    have hrun' := a1 fun C hC => (acceptSeries_iff lam C).2 (hgen C hC)
    refine ⟨fun k => if k ≤ degree then
        0 + (L.map fun t => t.2.2 * ⌊(Tn : ℚ) * coeff k (coeff (poleOrder (coneGens lam t.1)) t.2.1)⌋).sum else 0, p', ?_, ?_⟩
    · unfold seriesOnce
      simp only [hrun']
      rw [h4]
    · intro k hk
      obtain ⟨n1, n2⟩ := near_sum Tn (fun t : Cone (m + 1) × PowerSeries (PowerSeries ℚ) × ℤ => coeff k (coeff (poleOrder (coneGens lam t.1)) t.2.1))
        (fun t => t.2.2) L fun t ht => (h2 t ht).sign
      rw [hex k (S k) (hS k), hlen] at n1 n2
      simp only [if_pos hk, zero_add]
      generalize (L.map fun t => t.2.2 * ⌊(Tn : ℚ) * coeff k (coeff (poleOrder (coneGens lam t.1)) t.2.1)⌋).sum = s at n1 n2 ⊢
      have e : ((Tn : ℚ) * ((S k).length : ℚ) - (s : ℚ)) = ((Tn * ((S k).length : ℤ) - s : ℤ) : ℚ) := by push_cast; rfl
      rw [e, ← Int.cast_abs] at n1 n2
      refine ⟨by exact_mod_cast n1, fun h0 => ?_⟩
      have := n2 (by intro h; rw [h] at hlen; simp at hlen; omega)
      exact_mod_cast this
  · cases hD

include hN in
theorem series_loop (X : Smith.Xgcd) (hD : delivered N' .dual irr 1 [(0, T)] = some D) (junk : ℕ → Ref) (Tn : ℤ) (degree : ℕ) (hdeg : 1 ≤ degree)
    (S : ℕ → List (Vec m)) (hS : ∀ n, LatticePoints a (dilate n fun i => (b i : ℚ)) (S n))
    (hne : ∃ p : Fin m → ℚ, ∀ i, ∑ k, (a i k : ℚ) * p k ≤ b i) (hT : Triangulation T (coneOf (homog a b) Set.univ)) :
    ∀ (tries : ℕ) (guesses : ℕ → Vec (m + 1)) (p : Pool), PoolOk m degree p →
    ((∃ t < tries, GenericSeries (guesses t) D) → ∃ r, seriesLoop N' .dual irr 1 junk Tn degree [(0, T)] tries guesses p = .ok r) ∧
    ∀ r, seriesLoop N' .dual irr 1 junk Tn degree [(0, T)] tries guesses p = .ok r → ∀ k ≤ degree,
      |Tn * (S k).length - r k| ≤ D.length ∧ (0 < D.length → |Tn * (S k).length - r k| < D.length) := by
  intro tries
  induction tries with
  | zero =>
    intro guesses p hp
    exact ⟨fun ⟨t, ht, _⟩ => absurd ht (by omega), fun r h => by simp [seriesLoop] at h⟩
  | succ tries ih =>
    intro guesses p hp
    by_cases hgen : GenericSeries (guesses 0) D
    · obtain ⟨r, p', h1, h2⟩ := series_accept N' hN irr a b T D X hD junk Tn degree hdeg (guesses 0) hgen p hp S hS hne hT
      have e : seriesLoop N' .dual irr 1 junk Tn degree [(0, T)] (tries + 1) guesses p = .ok r := by
        unfold seriesLoop
        rw [h1]
      refine ⟨fun _ => ⟨r, e⟩, fun r' h => ?_⟩
      rw [e] at h
      cases h
      exact h2
    · obtain ⟨p', h1, h2⟩ := series_reject N' hN irr T D hD junk Tn degree hdeg (guesses 0) hgen p hp
      have e : seriesLoop N' .dual irr 1 junk Tn degree [(0, T)] (tries + 1) guesses p =
          seriesLoop N' .dual irr 1 junk Tn degree [(0, T)] tries (fun i => guesses (i + 1)) p' := by
        conv_lhs => unfold seriesLoop
        rw [h1]
      rw [e]
      obtain ⟨i1, i2⟩ := ih (fun i => guesses (i + 1)) p' h2
      refine ⟨fun ⟨t, ht, hg⟩ => i1 ?_, i2⟩
      cases t with
      | zero => exact absurd hg hgen
      | succ t => exact ⟨t, by omega, hg⟩

/-- **Specification.** What the program is to print: the numbers of lattice points of the dilations `0, …, degree`; for `degree = 1` only the number of lattice
points of the polytope itself. -/
def expected (S : ℕ → List (Vec m)) (degree : ℕ) : List ℤ :=
  if 1 < degree then (List.range (degree + 1)).map fun n => ((S n).length : ℤ) else [0, ((S 1).length : ℤ)]

include hN in
/-- **C73, every answer is right and there is an answer.** -/
theorem c73_answer (X : Smith.Xgcd) (hD : delivered N' .dual irr 1 [(0, T)] = some D) (hlen : D.length ≤ 5 * 10 ^ 9) (junk : ℕ → Ref) (degree : ℕ)
    (hdeg : 1 ≤ degree) (S : ℕ → List (Vec m)) (hS : ∀ n, LatticePoints a (dilate n fun i => (b i : ℚ)) (S n))
    (hne : ∃ p : Fin m → ℚ, ∀ i, ∑ k, (a i k : ℚ) * p k ≤ b i) (hT : Triangulation T (coneOf (homog a b) Set.univ))
    (tries : ℕ) (guesses : ℕ → Vec (m + 1)) (p : Pool) :
    ((∃ t < tries, GenericSeries (guesses t) D) → ehrhartTaylor N' .dual irr 1 junk degree [(0, T)] tries guesses p = .ok (expected S degree)) ∧
    ∀ out, ehrhartTaylor N' .dual irr 1 junk degree [(0, T)] tries guesses p = .ok out → out = expected S degree := by
  obtain ⟨h1, h2⟩ := series_loop N' hN irr a b T D X hD junk tenPowerConst degree hdeg S hS hne hT tries guesses
    { p.reset with width := (m + 1) + 1 + 1, degree := degree } ⟨rfl, rfl, rfl⟩
  have key : ∀ r, seriesLoop N' .dual irr 1 junk tenPowerConst degree [(0, T)] tries guesses
      { p.reset with width := (m + 1) + 1 + 1, degree := degree } = .ok r →
      ehrhartTaylor N' .dual irr 1 junk degree [(0, T)] tries guesses p = .ok (expected S degree) := by
    intro r hr
    have hk : ∀ k ≤ degree, (r k + tenPowerConst.fdiv 2).fdiv tenPowerConst = ((S k).length : ℤ) := by
      intro k hk
      obtain ⟨a1, a2⟩ := h2 r hr k hk
      exact round_series _ _ D.length hlen a1 a2
    unfold ehrhartTaylor
    dsimp only
    rw [hr]
    dsimp only
    unfold expected
    split
    · congr 1
      refine List.map_congr_left fun k hk' => ?_
      exact hk k (by have := List.mem_range.1 hk'; omega)
    · rw [if_pos (by omega), hk 1 hdeg]
  constructor
  · intro h
    obtain ⟨r, hr⟩ := h1 h
    exact key r hr
  · intro out hout
    cases hr : seriesLoop N' .dual irr 1 junk tenPowerConst degree [(0, T)] tries guesses { p.reset with width := (m + 1) + 1 + 1, degree := degree } with
    | error e =>
      unfold ehrhartTaylor at hout
      dsimp only at hout
      rw [hr] at hout
      cases hout
    | ok r =>
      rw [key r hr] at hout
      cases hout
      rfl

include hN in
/-- **C73, total correctness.** For every polytope `{x | aᵢ · x ≤ bᵢ}` (integral data, not empty, bounded) and every triangulation of the dual of the cone over
it: if the lattice reduction always finds short vectors, unimodular cones `D` are delivered that do not depend on the vectors tried; almost every vector is
generic for them; and if there are at most `5·10⁹`, the program ends, once a generic vector is tried, with the exact numbers of lattice points of the dilations. -/
theorem c73_total (X : Smith.Xgcd) (hs : ExpSubst.ShortVectors N') (junk : ℕ → Ref) (degree : ℕ) (hdeg : 1 ≤ degree)
    (S : ℕ → List (Vec m)) (hS : ∀ n, LatticePoints a (dilate n fun i => (b i : ℚ)) (S n))
    (hne : ∃ p : Fin m → ℚ, ∀ i, ∑ k, (a i k : ℚ) * p k ≤ b i) (hT : Triangulation T (coneOf (homog a b) Set.univ)) :
    ∃ D : List (Cone (m + 1)), delivered N' .dual irr 1 [(0, T)] = some D ∧ (∃ lam, GenericSeries lam D) ∧
      (D.length ≤ 5 * 10 ^ 9 → ∀ (tries : ℕ) (guesses : ℕ → Vec (m + 1)) (p : Pool), (∃ t < tries, GenericSeries (guesses t) D) →
        ehrhartTaylor N' .dual irr 1 junk degree [(0, T)] tries guesses p = .ok (expected S degree)) := by
  obtain ⟨D, hD⟩ := ExpSubst.delivered_dual N' hs irr 1 le_rfl [(0, T)] (by
    intro c hc B hB
    rw [List.mem_singleton] at hc
    subst hc
    exact hT.simplicial B hB)
  refine ⟨D, hD, generic_exists N' hN irr T D hD, fun hlen tries guesses p ht => ?_⟩
  exact (c73_answer N' hN irr a b T D X hD hlen junk degree hdeg S hS hne hT tries guesses p).1 ht

end

end Verif.Series
