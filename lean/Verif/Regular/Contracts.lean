import Verif.Regular.Spec
import Mathlib.LinearAlgebra.FiniteDimensional.Basic

/-!
# The contracts of the libraries can be met

Every finitely generated cone has finitely many facets, each cut out by an integer functional if the generators are integer vectors.
-/

namespace Verif.Regular

open Verif.Barvinok Verif.Barvinok.Spec Verif.Brion

variable {n : ℕ}

/-- The functional `w ↦ ∑ w k * y k` over the rational numbers. -/
def funQ {d : ℕ} (y : Fin d → ℚ) : (Fin d → ℚ) →ₗ[ℚ] ℚ where
  toFun w := ∑ k, y k * w k
  map_add' w w' := by rw [← Finset.sum_add_distrib]; exact Finset.sum_congr rfl fun k _ => by rw [Pi.add_apply, mul_add]
  map_smul' t w := by
    rw [RingHom.id_apply, smul_eq_mul, Finset.mul_sum]
    exact Finset.sum_congr rfl fun k _ => by rw [Pi.smul_apply, smul_eq_mul]; ring

open scoped Classical in
/-- A generator outside a face is separated from it by a rational functional that is non-negative on the cone. -/
theorem face_separate {M d : ℕ} (g : Fin M → Fin d → ℤ) (F : Set (Fin M)) (hF : IsFace (fun i k => (g i k : ℝ)) F) (j : Fin M) (hj : j ∉ F) :
    ∃ l : Fin d → ℚ, (∀ i, 0 ≤ ∑ k, (g i k : ℚ) * l k) ∧ (∀ i ∈ F, ∑ k, (g i k : ℚ) * l k = 0) ∧ 0 < ∑ k, (g j k : ℚ) * l k := by
  by_contra hcon
  push Not at hcon
  obtain ⟨l, hl, rfl⟩ := hF
  set F := zeros (fun i k => (g i k : ℝ)) l
  let A : Fin M ⊕ Fin M → (Fin d → ℚ) →ₗ[ℚ] ℚ := fun s =>
    match s with
    | .inl i => -(funQ fun k => (g i k : ℚ))
    | .inr i => if i ∈ F then funQ fun k => (g i k : ℚ) else 0
  obtain ⟨c, hc, e⟩ := farkas (K := ℚ) (Finset.univ : Finset (Fin M ⊕ Fin M)) A (funQ fun k => (g j k : ℚ)) (by
    intro x hx
    have h1 : ∀ i, 0 ≤ ∑ k, (g i k : ℚ) * x k := by
      intro i
      have : -(∑ k, (g i k : ℚ) * x k) ≤ 0 := hx (.inl i) (Finset.mem_univ _)
      linarith
    have h2 : ∀ i ∈ F, ∑ k, (g i k : ℚ) * x k = 0 := by
      intro i hi
      have : A (.inr i) x ≤ 0 := hx (.inr i) (Finset.mem_univ _)
      simp only [A, if_pos hi] at this
      exact le_antisymm this (h1 i)
    exact hcon x h1 h2)
  -- evaluate at `l`
  have hco : ∀ k, (g j k : ℚ) = ∑ i, -(c (.inl i) * (g i k : ℚ)) + ∑ i, (if i ∈ F then c (.inr i) * (g i k : ℚ) else 0) := by
    intro k
    have h := LinearMap.congr_fun e (Pi.single k 1)
    have h0 : ∀ y : Fin d → ℚ, funQ y (Pi.single k 1) = y k := by
      intro y
      show ∑ k', y k' * (Pi.single k 1 : Fin d → ℚ) k' = y k
      rw [Finset.sum_eq_single k (fun b _ hb => by rw [Pi.single_eq_of_ne hb, mul_zero]) (fun h => absurd (Finset.mem_univ _) h), Pi.single_eq_same, mul_one]
    rw [h0] at h
    rw [h, LinearMap.sum_apply, Fintype.sum_sum_type]
    congr 1
    · refine Finset.sum_congr rfl fun i _ => ?_
      show c (.inl i) * (-(funQ fun k => (g i k : ℚ)) (Pi.single k 1)) = _
      rw [h0]
      ring
    · refine Finset.sum_congr rfl fun i _ => ?_
      show c (.inr i) * ((if i ∈ F then funQ fun k => (g i k : ℚ) else 0 : (Fin d → ℚ) →ₗ[ℚ] ℚ) (Pi.single k 1)) = _
      split_ifs
      · rw [h0]
      · rw [LinearMap.zero_apply, mul_zero]
  have hcoR : ∀ k, (g j k : ℝ) = ∑ i, -((c (.inl i) : ℝ) * (g i k : ℝ)) + ∑ i, (if i ∈ F then (c (.inr i) : ℝ) * (g i k : ℝ) else 0) := by
    intro k
    have := congrArg (fun x : ℚ => (x : ℝ)) (hco k)
    push_cast at this
    rw [this]
    congr 1
    refine Finset.sum_congr rfl fun i _ => ?_
    split_ifs <;> simp
  have hval : ∑ k, l k * (g j k : ℝ) = -∑ i, (c (.inl i) : ℝ) * ∑ k, l k * (g i k : ℝ) := by
    have e1 : ∀ k, l k * (g j k : ℝ) = (∑ i, -((c (.inl i) : ℝ) * (l k * (g i k : ℝ)))) +
        ∑ i, (if i ∈ F then (c (.inr i) : ℝ) * (l k * (g i k : ℝ)) else 0) := by
      intro k
      rw [hcoR k, mul_add, Finset.mul_sum, Finset.mul_sum]
      congr 1
      · exact Finset.sum_congr rfl fun i _ => by ring
      · refine Finset.sum_congr rfl fun i _ => ?_
        split_ifs <;> ring
    rw [Finset.sum_congr rfl fun k _ => e1 k, Finset.sum_add_distrib, Finset.sum_comm, Finset.sum_comm (s := Finset.univ) (t := Finset.univ)
      (f := fun k i => if i ∈ F then (c (.inr i) : ℝ) * (l k * (g i k : ℝ)) else 0)]
    have e2 : ∑ i, ∑ k, (if i ∈ F then (c (.inr i) : ℝ) * (l k * (g i k : ℝ)) else 0) = 0 := by
      refine Finset.sum_eq_zero fun i _ => ?_
      by_cases hi : i ∈ F
      · simp only [if_pos hi]
        rw [← Finset.mul_sum]
        have : ∑ k, l k * (g i k : ℝ) = 0 := hi
        rw [this, mul_zero]
      · simp only [if_neg hi]
        exact Finset.sum_const_zero
    rw [e2, add_zero, ← Finset.sum_neg_distrib]
    refine Finset.sum_congr rfl fun i _ => ?_
    rw [Finset.sum_neg_distrib, Finset.mul_sum]
  have hneg : ∑ k, l k * (g j k : ℝ) ≤ 0 := by
    rw [hval, neg_nonpos]
    exact Finset.sum_nonneg fun i _ => mul_nonneg (by exact_mod_cast hc _) (hl i)
  exact hj (le_antisymm hneg (hl j))

/-- Common denominators. -/
theorem clear_denominators {d : ℕ} (l : Fin d → ℚ) : ∃ (D : ℤ) (z : Fin d → ℤ), 0 < D ∧ ∀ k, (z k : ℚ) = D * l k := by
  refine ⟨∏ k, ((l k).den : ℤ), fun k => (∏ k' ∈ Finset.univ.erase k, ((l k').den : ℤ)) * (l k).num, Finset.prod_pos fun k _ => by exact_mod_cast (l k).den_pos, fun k => ?_⟩
  rw [← Finset.mul_prod_erase Finset.univ _ (Finset.mem_univ k)]
  push_cast
  have : (((l k).den : ℚ)) * l k = (l k).num := Rat.den_mul_eq_num (l k)
  rw [mul_assoc, mul_comm (((l k).den : ℚ)), mul_assoc, mul_comm (l k), this]

open scoped Classical in
/-- A face of a cone with integer generators is cut out by an integer functional. -/
theorem face_integer {M d : ℕ} (g : Fin M → Fin d → ℤ) (F : Set (Fin M)) (hF : IsFace (fun i k => (g i k : ℝ)) F) :
    ∃ l : Fin d → ℤ, (∀ i, 0 ≤ ∑ k, g i k * l k) ∧ ∀ i, ∑ k, g i k * l k = 0 ↔ i ∈ F := by
  have hsep : ∀ j : Fin M, ∃ l : Fin d → ℚ, (∀ i, 0 ≤ ∑ k, (g i k : ℚ) * l k) ∧ (∀ i ∈ F, ∑ k, (g i k : ℚ) * l k = 0) ∧
      (j ∉ F → 0 < ∑ k, (g j k : ℚ) * l k) := by
    intro j
    by_cases hj : j ∈ F
    · exact ⟨0, fun i => by simp, fun i _ => by simp, fun h => absurd hj h⟩
    · obtain ⟨l, h1, h2, h3⟩ := face_separate g F hF j hj
      exact ⟨l, h1, h2, fun _ => h3⟩
  choose l h1 h2 h3 using hsep
  obtain ⟨D, z, hD, hz⟩ := clear_denominators fun k => ∑ j, l j k
  have hsum : ∀ i, ((∑ k, g i k * z k : ℤ) : ℚ) = D * ∑ j, ∑ k, (g i k : ℚ) * l j k := by
    intro i
    push_cast
    rw [Finset.sum_comm, Finset.mul_sum]
    refine Finset.sum_congr rfl fun k _ => ?_
    rw [hz k, Finset.mul_sum, Finset.mul_sum, Finset.mul_sum]
    exact Finset.sum_congr rfl fun j _ => by ring
  have hDQ : (0 : ℚ) < D := by exact_mod_cast hD
  refine ⟨z, fun i => ?_, fun i => ⟨fun h => ?_, fun h => ?_⟩⟩
  · have : (0 : ℚ) ≤ ((∑ k, g i k * z k : ℤ) : ℚ) := by
      rw [hsum]
      exact mul_nonneg hDQ.le (Finset.sum_nonneg fun j _ => h1 j i)
    exact_mod_cast this
  · by_contra hi
    have : (0 : ℚ) < ((∑ k, g i k * z k : ℤ) : ℚ) := by
      rw [hsum]
      refine mul_pos hDQ (Finset.sum_pos' (fun j _ => h1 j i) ⟨i, Finset.mem_univ _, h3 i hi⟩)
    rw [h] at this
    simp at this
  · have : ((∑ k, g i k * z k : ℤ) : ℚ) = 0 := by
      rw [hsum, Finset.sum_eq_zero fun j _ => h2 j i h, mul_zero]
    exact_mod_cast this

open scoped Classical in
/-- The facets as a list. -/
noncomputable def facetList {M d : ℕ} (g : Fin M → Fin d → ℝ) : List (Set (Fin M)) := (Set.toFinite {F | IsFacet g F}).toFinset.toList

theorem facetList_nodup {M d : ℕ} (g : Fin M → Fin d → ℝ) : (facetList g).Nodup := Finset.nodup_toList _

theorem facetList_mem {M d : ℕ} (g : Fin M → Fin d → ℝ) (F : Set (Fin M)) : F ∈ facetList g ↔ IsFacet g F := by
  unfold facetList
  rw [Finset.mem_toList, Set.Finite.mem_toFinset]
  rfl

open scoped Classical in
/-- The contract of cddlib can be met. -/
theorem ddOk_satisfiable : ∃ dd : DD, DDOk dd := by
  refine ⟨fun M d g => (facetList fun i k => (g i k : ℝ)).map fun F => ⟨false, fun j => decide (∃ i : Fin M, i ∈ F ∧ j = i + 1)⟩, fun M d g => ?_⟩
  have e : ((((facetList fun i k => (g i k : ℝ)).map fun F => (⟨false, fun j => decide (∃ i : Fin M, i ∈ F ∧ j = i + 1)⟩ : DDRow)).filter
      fun row => !row.equation).map (DDRow.set M)) = facetList fun i k => (g i k : ℝ) := by
    rw [List.filter_eq_self.2 (by
      intro row hrow
      obtain ⟨F, -, rfl⟩ := List.mem_map.1 hrow
      rfl), List.map_map]
    conv_rhs => rw [← List.map_id (facetList fun i k => (g i k : ℝ))]
    refine List.map_congr_left fun F _ => ?_
    ext i
    show decide (∃ i' : Fin M, i' ∈ F ∧ (i : ℕ) + 1 = i' + 1) = true ↔ i ∈ F
    rw [decide_eq_true_iff]
    constructor
    · rintro ⟨i', hi', he⟩
      have : i = i' := Fin.ext (by omega)
      rw [this]; exact hi'
    · intro hi
      exact ⟨i, hi, rfl⟩
  rw [e]
  exact ⟨facetList_nodup _, fun F => facetList_mem _ F⟩

open scoped Classical in
/-- The contract of the ray algorithm can be met. -/
theorem rayAlgOk_satisfiable : ∃ alg : RayAlg, RayAlgOk alg := by
  have hl : ∀ (M d : ℕ) (g : Fin M → Fin d → ℤ) (F : Set (Fin M)), ∃ l : Fin d → ℤ,
      IsFace (fun i k => (g i k : ℝ)) F → (∀ i, 0 ≤ ∑ k, g i k * l k) ∧ ∀ i, ∑ k, g i k * l k = 0 ↔ i ∈ F := by
    intro M d g F
    by_cases hF : IsFace (fun i k => (g i k : ℝ)) F
    · obtain ⟨l, h⟩ := face_integer g F hF
      exact ⟨l, fun _ => h⟩
    · exact ⟨0, fun h => absurd h hF⟩
  choose l hl using hl
  let row : (M d : ℕ) → (Fin M → Fin d → ℤ) → Set (Fin M) → ℕ → ℤ := fun M d g F j =>
    if h : j < M then ∑ k, g ⟨j, h⟩ k * l M d g F k else if h : j - M < d then -l M d g F ⟨j - M, h⟩ else 0
  have hrow1 : ∀ (M d : ℕ) (g : Fin M → Fin d → ℤ) (F : Set (Fin M)) (i : Fin M), row M d g F i = ∑ k, g i k * l M d g F k := by
    intro M d g F i
    simp only [row, dif_pos i.2]
  have hrow2 : ∀ (M d : ℕ) (g : Fin M → Fin d → ℤ) (F : Set (Fin M)) (k : Fin d), row M d g F (M + k) = -l M d g F k := by
    intro M d g F k
    simp only [row]
    rw [dif_neg (by omega), dif_pos (by omega)]
    congr 2
    exact Fin.ext (by simp)
  refine ⟨fun M d g => ((facetList fun i k => (g i k : ℝ)).map (row M d g),
    Module.finrank ℝ (⨅ i, LinearMap.ker (fun_ fun k => (g i k : ℝ)) : Submodule ℝ (Fin d → ℝ))), fun M d g => ?_⟩
  have hface : ∀ F ∈ facetList (fun i k => (g i k : ℝ)), (∀ i, 0 ≤ ∑ k, g i k * l M d g F k) ∧ ∀ i, ∑ k, g i k * l M d g F k = 0 ↔ i ∈ F :=
    fun F hF => hl M d g F ((facetList_mem _ F).1 hF).1
  have e : (((facetList fun i k => (g i k : ℝ)).map (row M d g)).map fun row => {i : Fin M | row i = 0}) = facetList fun i k => (g i k : ℝ) := by
    rw [List.map_map]
    conv_rhs => rw [← List.map_id (facetList fun i k => (g i k : ℝ))]
    refine List.map_congr_left fun F hF => ?_
    ext i
    show row M d g F i = 0 ↔ i ∈ F
    rw [hrow1]
    exact (hface F hF).2 i
  refine ⟨?_, ?_, ?_, rfl⟩
  · intro r hr i
    obtain ⟨F, hF, rfl⟩ := List.mem_map.1 hr
    rw [hrow1]
    refine ⟨(hface F hF).1 i, ?_⟩
    rw [← Finset.sum_neg_distrib]
    refine Finset.sum_congr rfl fun k _ => ?_
    rw [hrow2]
    ring
  · rw [e]; exact facetList_nodup _
  · rw [e]; exact fun F => facetList_mem _ F

open scoped Classical in
/-- The contract of the rank test can be met. -/
theorem lindepOk_satisfiable : ∃ lindep : List (Vec n) → List ℤ → Bool, LindepOk lindep :=
  ⟨fun rays ws => decide (∃ l : Fin n → ℝ, ∀ i : Fin rays.length, dot (rays.get i) l = (ws.getD i 0 : ℤ)), fun _ _ => by rw [decide_eq_true_iff]⟩

/-- A generator that stays in the range. -/
theorem rngOk_satisfiable : ∃ g : Rng, g.Ok := ⟨fun _ lo _ => lo, fun _ _ _ h => ⟨le_rfl, h⟩⟩

end Verif.Regular
