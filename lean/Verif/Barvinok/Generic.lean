import Verif.Barvinok.Step
import Mathlib.Topology.Baire.CompleteMetrizable
import Mathlib.Topology.Baire.Lemmas
import Mathlib.Topology.MetricSpace.Pseudo.Pi
import Mathlib.Topology.Instances.Real.Lemmas
import Mathlib.Topology.Algebra.Ring.Real
import Mathlib.Topology.Order.OrderClosed

/-!
# Generic points

A linear relation between indicator functions of simplicial cones that holds at all points with no
integer relation between their coordinates holds at every point off the facet hyperplanes of the
cones that occur in it.
-/

namespace Verif.Barvinok

open Spec Matrix Filter Topology

/-- No non-trivial integer relation between the coordinates. -/
def IsGeneric {n : ℕ} (p : Fin n → ℝ) : Prop := ∀ c : Vec n, c ≠ 0 → dot c p ≠ 0

theorem continuous_dot {n : ℕ} (c : Vec n) : Continuous (dot c) := by
  unfold dot
  exact continuous_finsetSum _ fun k _ => continuous_const.mul (continuous_apply k)

theorem dense_generic {n : ℕ} : Dense {p : Fin n → ℝ | IsGeneric p} := by
  have h : {p : Fin n → ℝ | IsGeneric p} = ⋂ c : {c : Vec n // c ≠ 0}, {p | dot c.1 p ≠ 0} := by
    ext p
    simp [IsGeneric]
  rw [h]
  apply dense_iInter_of_isOpen
  · intro c
    exact isOpen_ne_fun (continuous_dot _) continuous_const
  · rintro ⟨c, hc⟩
    intro p
    by_cases hp : dot c p = 0
    · have hsq : 0 < ∑ k, (c k : ℝ) * (c k : ℝ) := by
        obtain ⟨k, hk⟩ := Function.ne_iff.mp hc
        refine Finset.sum_pos' (fun k _ => mul_self_nonneg _) ⟨k, Finset.mem_univ _, ?_⟩
        have : (c k : ℝ) ≠ 0 := by exact_mod_cast hk
        exact mul_self_pos.mpr this
      have ht : Tendsto (fun e : ℝ => fun k => p k + e * (c k : ℝ)) (𝓝[≠] 0) (𝓝 p) := by
        refine Tendsto.mono_left ?_ nhdsWithin_le_nhds
        have : Continuous (fun e : ℝ => fun k => p k + e * (c k : ℝ)) :=
          continuous_pi fun k => by fun_prop
        have h0 := this.tendsto 0
        simpa using h0
      refine mem_closure_of_tendsto ht ?_
      filter_upwards [self_mem_nhdsWithin] with e he
      show dot c _ ≠ 0
      have : dot c (fun k => p k + e * (c k : ℝ)) = dot c p + e * ∑ k, (c k : ℝ) * (c k : ℝ) := by
        unfold dot
        rw [Finset.mul_sum, ← Finset.sum_add_distrib]
        exact Finset.sum_congr rfl fun k _ => by ring
      rw [this, hp, zero_add]
      exact mul_ne_zero he hsq.ne'
    · exact subset_closure hp

/-- A cone with non-singular integer rays has integer facet normals with the duality relation. -/
theorem exists_facets {n : ℕ} (A : Mat n) (hA : A.det ≠ 0) : ∃ (F : Mat n) (d : Vec n),
    (∀ i, 0 < d i) ∧ ∀ i j, ∑ k, A i k * F j k = if i = j then -d j else 0 := by
  obtain ⟨F, d, -, h1, h2, -⟩ := computeDetAndFacets_some ⟨1, 0, A, 0, none, 0, 0⟩ rfl hA
  exact ⟨F, d, h1, h2⟩

theorem generic_off_planes {n : ℕ} (A : Mat n) (hA : A.det ≠ 0) (p : Fin n → ℝ)
    (hp : IsGeneric p) : ¬ OnFacetPlane A p := by
  obtain ⟨F, d, hd, h⟩ := exists_facets A hA
  rw [onFacetPlane_iff A F d hA hd h]
  rintro ⟨j, hj⟩
  exact hp (F j) (row_ne_zero F (det_transpose_mul_ne A F d hd h) j) hj

theorem ind_locally_constant {n : ℕ} (A : Mat n) (hA : A.det ≠ 0) (p : Fin n → ℝ)
    (hp : ¬ OnFacetPlane A p) : ∀ᶠ q in 𝓝 p, ind (cone A) q = ind (cone A) p := by
  obtain ⟨F, d, hd, h⟩ := exists_facets A hA
  rw [onFacetPlane_iff A F d hA hd h] at hp
  push Not at hp
  have hev : ∀ᶠ q in 𝓝 p, ∀ j, (dot (F j) q ≤ 0 ↔ dot (F j) p ≤ 0) := by
    rw [eventually_all]
    intro j
    rcases lt_or_gt_of_ne (hp j) with hj | hj
    · have := (continuous_dot (F j)).continuousAt.eventually_lt
        (continuousAt_const (y := (0 : ℝ))) hj
      filter_upwards [this] with q hq
      exact ⟨fun _ => hj.le, fun _ => hq.le⟩
    · have := (continuousAt_const (y := (0 : ℝ))).eventually_lt
        (continuous_dot (F j)).continuousAt hj
      filter_upwards [this] with q hq
      exact ⟨fun h => absurd h (not_le.mpr hq), fun h => absurd h (not_le.mpr hj)⟩
  filter_upwards [hev] with q hq
  unfold ind
  have : q ∈ cone A ↔ p ∈ cone A := by
    rw [mem_cone_iff A F d hA hd h, mem_cone_iff A F d hA hd h]
    exact forall_congr' hq
  by_cases hc : p ∈ cone A
  · rw [if_pos hc, if_pos (this.mpr hc)]
  · rw [if_neg hc, if_neg (fun h => hc (this.mp h))]

/-- The signed sum of a list of cones given as (coefficient, rays). -/
noncomputable def signedSum {n : ℕ} (L : List (ℤ × Mat n)) (p : Fin n → ℝ) : ℤ :=
  (L.map fun c => c.1 * ind (cone c.2) p).sum

theorem signedSum_extend {n : ℕ} (L M : List (ℤ × Mat n)) (hL : ∀ c ∈ L, c.2.det ≠ 0)
    (hM : ∀ c ∈ M, c.2.det ≠ 0)
    (h : ∀ p, IsGeneric p → signedSum L p = signedSum M p) (p : Fin n → ℝ)
    (hpL : ∀ c ∈ L, ¬ OnFacetPlane c.2 p) (hpM : ∀ c ∈ M, ¬ OnFacetPlane c.2 p) :
    signedSum L p = signedSum M p := by
  have hloc : ∀ L : List (ℤ × Mat n), (∀ c ∈ L, c.2.det ≠ 0) →
      (∀ c ∈ L, ¬ OnFacetPlane c.2 p) → ∀ᶠ q in 𝓝 p, signedSum L q = signedSum L p := by
    intro L
    induction L with
    | nil => intro _ _; exact Eventually.of_forall fun q => rfl
    | cons a L ih =>
      intro h1 h2
      have e1 := ih (fun c hc => h1 c (List.mem_cons_of_mem _ hc))
        (fun c hc => h2 c (List.mem_cons_of_mem _ hc))
      have e2 := ind_locally_constant a.2 (h1 a (List.mem_cons_self ..)) p
        (h2 a (List.mem_cons_self ..))
      filter_upwards [e1, e2] with q hq1 hq2
      simp only [signedSum, List.map_cons, List.sum_cons] at hq1 ⊢
      rw [hq1, hq2]
  obtain ⟨q, hq, hgq⟩ := ((dense_generic (n := n)).inter_nhds_nonempty
    ((hloc L hL hpL).and (hloc M hM hpM)))
  rw [← hgq.1, ← hgq.2]
  exact h q hq

end Verif.Barvinok
