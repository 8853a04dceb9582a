import Verif.Vrep.Spec
import Verif.Ti2.Dual
import Verif.Ti2.Exists
import Mathlib.Analysis.Convex.KreinMilman
import Mathlib.Analysis.Normed.Module.Convex
import Mathlib.Analysis.Convex.Topology

/-!
# The convex hull of finitely many rational points is given by inequalities
-/

namespace Verif.Vrep

open Verif.Barvinok Verif.Barvinok.Spec Verif.Brion Verif.Ti2 Verif.Regular Verif.CddV

variable {n : ℕ} {rows : List (List ℚ)}

theorem finite_points (rows : List (List ℚ)) : (Points rows : Set (Fin n → ℝ)).Finite := by
  have : (Points rows : Set (Fin n → ℝ)) = (fun row => real (rowPoint row)) '' {row | row ∈ rows} := by
    ext x
    constructor
    · rintro ⟨row, hr, rfl⟩; exact ⟨row, hr, rfl⟩
    · rintro ⟨row, hr, rfl⟩; exact ⟨row, hr, rfl⟩
  rw [this]
  exact (List.finite_toSet rows).image _

theorem hull_bounded (rows : List (List ℚ)) : Bornology.IsBounded (Hull rows : Set (Fin n → ℝ)) :=
  isBounded_convexHull.2 (finite_points rows).isBounded

/-- A positive multiple of `(1, v)` with integer entries. -/
theorem exists_homogenized (v : Fin n → ℚ) : ∃ (r : Vec (n + 1)) (d : ℤ), 0 < d ∧ toR r = Fin.cons (d : ℝ) fun k => (d : ℝ) * real v k := by
  let d : ℕ := ∏ k, (v k).den
  have hd : 0 < d := Finset.prod_pos fun k _ => (v k).den_pos
  have hz : ∀ k, ∃ z : ℤ, (z : ℚ) = d * v k := by
    intro k
    obtain ⟨e, he⟩ := Finset.dvd_prod_of_mem (fun k => (v k).den) (Finset.mem_univ k)
    refine ⟨e * (v k).num, ?_⟩
    have h1 : (d : ℚ) = (v k).den * e := by exact_mod_cast he
    rw [h1]
    have := Rat.mul_den_eq_num (v k)
    push_cast
    rw [← this]
    ring
  choose z hz using hz
  refine ⟨Fin.cons (d : ℤ) z, d, by exact_mod_cast hd, ?_⟩
  funext k
  refine Fin.cases ?_ (fun k => ?_) k
  · simp [toR]
  · have := hz k
    have h2 : ((z k : ℚ) : ℝ) = ((d * v k : ℚ) : ℝ) := by rw [this]
    push_cast at h2
    simpa [toR, real] using h2

/-- **Weyl's theorem** for the points of the rows. -/
theorem exists_inequalities (rows : List (List ℚ)) : ∃ ineqs : List (ℤ × Vec n), Polyhedron ineqs = Hull rows := by
  have hex : ∀ row : List ℚ, ∃ p : Vec (n + 1) × ℤ, 0 < p.2 ∧ toR p.1 = Fin.cons (p.2 : ℝ) fun k => (p.2 : ℝ) * real (rowPoint (n := n) row) k := fun row => by
    obtain ⟨r, d, h⟩ := exists_homogenized (rowPoint (n := n) row)
    exact ⟨(r, d), h⟩
  choose p hp hpr using hex
  let R : List (Vec (n + 1)) := rows.map fun row => (p row).1
  obtain ⟨alg, ha⟩ := raysOk_satisfiable
  have hF := rayList_polar (R := R) (ha _ _ (dualMatrix R) (slackBits R.length (n + 1)))
  set F := listVectors (alg R.length (R.length + (n + 1)) (dualMatrix R) (slackBits R.length (n + 1))).1
  set S := listVectors (alg R.length (R.length + (n + 1)) (dualMatrix R) (slackBits R.length (n + 1))).2
  have hcone : ∀ x : Fin n → ℝ, (Fin.cons 1 x : Fin (n + 1) → ℝ) ∈ generated R ↔ x ∈ Hull rows := by
    intro x
    constructor
    · rintro ⟨c, hc, -, hx⟩
      have hlen : R.length = rows.length := by simp [R]
      have hget : ∀ i : Fin R.length, ∃ row ∈ rows, R.get i = (p row).1 := by
        intro i
        obtain ⟨row, hr, he⟩ := List.mem_map.1 (List.get_mem R i)
        exact ⟨row, hr, he.symm⟩
      choose w hw hwe using hget
      have hcoord : ∀ i k, (R.get i k : ℝ) = (Fin.cons ((p (w i)).2 : ℝ) fun k => ((p (w i)).2 : ℝ) * real (rowPoint (n := n) (w i)) k : Fin (n + 1) → ℝ) k := by
        intro i k
        rw [hwe i, ← hpr]
        rfl
      have h1 : ∑ i, c i * ((p (w i)).2 : ℝ) = 1 := by
        have := hx 0
        rw [Fin.cons_zero] at this
        rw [this]
        exact Finset.sum_congr rfl fun i _ => by rw [hcoord, Fin.cons_zero]
      have h2 : x = ∑ i, (c i * ((p (w i)).2 : ℝ)) • real (rowPoint (n := n) (w i)) := by
        funext k
        have := hx k.succ
        rw [Fin.cons_succ] at this
        rw [this, Finset.sum_apply]
        exact Finset.sum_congr rfl fun i _ => by rw [hcoord, Fin.cons_succ, Pi.smul_apply, smul_eq_mul]; ring
      rw [h2]
      refine (convex_convexHull ℝ _).sum_mem (fun i _ => mul_nonneg (hc i) (by exact_mod_cast (hp (w i)).le)) h1 fun i _ => ?_
      exact subset_convexHull ℝ _ ⟨w i, hw i, rfl⟩
    · intro hx
      have hconv : Convex ℝ {x : Fin n → ℝ | (Fin.cons 1 x : Fin (n + 1) → ℝ) ∈ generated R} := by
        intro x hx y hy a b ha hb hab
        rw [Set.mem_ofPred_eq, generated_iff] at hx hy ⊢
        intro z hz
        have e : ∀ u : Fin n → ℝ, ∑ k, (Fin.cons 1 u : Fin (n + 1) → ℝ) k * z k = z 0 + ∑ k : Fin n, u k * z k.succ := by
          intro u
          rw [Fin.sum_univ_succ]
          simp
        have h1 := hx z hz
        have h2 := hy z hz
        rw [e] at h1 h2 ⊢
        have e2 : ∑ k : Fin n, (a • x + b • y) k * z k.succ = a * ∑ k : Fin n, x k * z k.succ + b * ∑ k : Fin n, y k * z k.succ := by
          rw [Finset.mul_sum, Finset.mul_sum, ← Finset.sum_add_distrib]
          exact Finset.sum_congr rfl fun k _ => by simp; ring
        rw [e2]
        have : z 0 = a * z 0 + b * z 0 := by rw [← add_mul, hab, one_mul]
        rw [this]
        nlinarith
      refine convexHull_min ?_ hconv hx
      rintro x ⟨row, hr, rfl⟩
      rw [Set.mem_ofPred_eq, generated_iff]
      intro z hz
      have h1 := hz (p row).1 (List.mem_map_of_mem hr)
      have h2 : dot (p row).1 z = ((p row).2 : ℝ) * ∑ k, (Fin.cons 1 (real (rowPoint row)) : Fin (n + 1) → ℝ) k * z k := by
        unfold dot
        rw [Finset.mul_sum]
        refine Finset.sum_congr rfl fun k _ => ?_
        have : ((p row).1 k : ℝ) = toR (p row).1 k := rfl
        rw [this, hpr]
        refine Fin.cases ?_ (fun k => ?_) k
        · simp
        · simp; ring
      rw [h2] at h1
      have hpos : (0 : ℝ) < (p row).2 := by exact_mod_cast hp row
      exact nonpos_of_mul_nonpos_right h1 hpos
  let q : Vec (n + 1) → ℤ × Vec n := fun f => (-f 0, fun k => -f k.succ)
  have hq : ∀ (f : Vec (n + 1)) (x : Fin n → ℝ), ((q f).1 : ℝ) + dot (q f).2 x = -dot f (Fin.cons 1 x : Fin (n + 1) → ℝ) := by
    intro f x
    unfold dot
    rw [Fin.sum_univ_succ]
    simp only [q, Fin.cons_zero, Fin.cons_succ, mul_one, neg_add, Int.cast_neg, neg_mul, Finset.sum_neg_distrib]
  refine ⟨(F ++ S ++ S.map fun s => -s).map q, Set.ext fun x => ?_⟩
  rw [← hcone x, bipolar hF]
  have hneg : ∀ (f : Vec (n + 1)) (y : Fin (n + 1) → ℝ), dot (-f) y = -dot f y := by
    intro f y
    unfold dot
    rw [← Finset.sum_neg_distrib]
    exact Finset.sum_congr rfl fun k _ => by simp
  constructor
  · intro hx
    have hx' : ∀ f ∈ F ++ S ++ S.map fun s => -s, dot f (Fin.cons 1 x : Fin (n + 1) → ℝ) ≤ 0 := by
      intro f hf
      have := hx (q f) (List.mem_map_of_mem hf)
      have h2 := hq f x
      linarith
    refine ⟨fun f hf => hx' f (by simp [hf]), fun s hs => le_antisymm (hx' s (by simp [hs])) ?_⟩
    have := hx' (-s) (List.mem_append_right _ (List.mem_map_of_mem hs))
    rw [hneg] at this
    linarith
  · rintro ⟨h1, h2⟩ q' hq'
    obtain ⟨f, hf, rfl⟩ := List.mem_map.1 hq'
    have := hq f x
    have h3 : dot f (Fin.cons 1 x : Fin (n + 1) → ℝ) ≤ 0 := by
      rw [List.mem_append, List.mem_append] at hf
      rcases hf with (hf | hf) | hf
      · exact h1 f hf
      · exact (h2 f hf).le
      · obtain ⟨s, hs, rfl⟩ := List.mem_map.1 hf
        rw [hneg, h2 s hs, neg_zero]
    linarith

/-- The vertices of the convex hull are the points of an irredundant list. -/
theorem irredundant_vertices (hirr : Irredundant n rows) (ineqs : List (ℤ × Vec n)) (hP : Polyhedron ineqs = Hull rows) :
    IsVertexList (normals ineqs) (sides ineqs) (rows.map rowPoint) := by
  refine ⟨hirr.1, fun x => ?_⟩
  rw [← polyhedron_eq, hP]
  constructor
  · rintro ⟨v, hv, rfl⟩
    obtain ⟨row, hr, rfl⟩ := List.mem_map.1 hv
    by_contra hne
    have hsub : (Hull rows).extremePoints ℝ ⊆ Points rows \ {real (rowPoint (n := n) row)} := by
      intro y hy
      refine ⟨extremePoints_convexHull_subset hy, fun h => hne ?_⟩
      rw [Set.mem_singleton_iff] at h
      rw [h] at hy
      exact hy
    have hfin : (Points rows \ {real (rowPoint (n := n) row)}).Finite := (finite_points rows).subset Set.sdiff_subset
    have hcomp : IsCompact (Hull rows : Set (Fin n → ℝ)) := Set.Finite.isCompact_convexHull (𝕜 := ℝ) (finite_points rows)
    have hkm := closure_convexHull_extremePoints hcomp (convex_convexHull ℝ _)
    have hle : closure (convexHull ℝ ((Hull rows : Set (Fin n → ℝ)).extremePoints ℝ)) ⊆ convexHull ℝ (Points rows \ {real (rowPoint (n := n) row)}) :=
      closure_minimal (convexHull_mono hsub) (Set.Finite.isCompact_convexHull (𝕜 := ℝ) hfin).isClosed
    refine hirr.2 row hr (hle ?_)
    rw [hkm]
    exact subset_convexHull ℝ _ ⟨row, hr, rfl⟩
  · intro hx
    obtain ⟨row, hr, rfl⟩ := extremePoints_convexHull_subset hx
    exact ⟨_, List.mem_map_of_mem hr, rfl⟩

end Verif.Vrep
