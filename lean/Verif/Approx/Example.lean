import Verif.Approx.Final
import Verif.Brion.Example

/-!
# C85: examples, and two ways in which the approximation mode fails
-/

namespace Verif.Approx

open Verif.Barvinok Verif.Barvinok.Spec Verif.ExpSubst Verif.Irrational Verif.Brion

/-- The first cone of the list leaves the heap. -/
def first {m : ℕ} : Pick (m + 1) := fun d l => (d, l)

theorem first_ok {m : ℕ} : PickOk (first (m := m)) := fun _ _ => List.Perm.refl _

/-! ### The triangle -/

/-- The cones of the triangle, as pieces without facets. -/
def trianglePieces : List ((Fin 2 → ℚ) × List (Piece 2)) := Triangle.cones.map fun c => (c.1, c.2.map fun B => ⟨B, none⟩)

/-- All bounds shown for the triangle enclose four, and both final bounds are four. -/
example (X : Smith.Xgcd) (maxDet : ℤ) (h1 : 1 ≤ maxDet) (hmax : maxDet ≤ Piped.intMax) (fuel : ℕ) (hfuel : maxDet < fuel) :
    ∃ (N : Ntl 2) (depth : Cone 2 → ℕ), N.Ok ∧ ∀ (rounds : ℕ) (lam : Vec 2) (pick : Pick 2), PickOk pick →
      (∀ s ∈ (approximate N X .irrationalPrimal (irrVertex depth) maxDet fuel rounds lam pick trianglePieces).2, s.1 ≤ 4 ∧ 4 ≤ s.2) ∧
      ∀ s, (approximate N X .irrationalPrimal (irrVertex depth) maxDet fuel rounds lam pick trianglePieces).1 = .ok s → s.lower = 4 ∧ s.upper = 4 := by
  obtain ⟨N, hN, hR⟩ := shortestRow_satisfiable 2
  obtain ⟨⟨depth, hd⟩, -⟩ := estimate_satisfiable (n := 2)
  refine ⟨N, depth, hN, fun rounds lam pick hpick => ?_⟩
  have := c85_irrationalPrimal_partial N hN hR X depth (fun C _ => hd C) maxDet h1 hmax fuel hfuel rounds lam pick hpick Triangle.a Triangle.b Triangle.S
    Triangle.lattice trianglePieces Triangle.vertices (fun c hc => by
      obtain ⟨c', hc', rfl⟩ := List.mem_map.1 hc
      have h := Triangle.triangulations c' hc'
      have e : (c'.2.map fun B => (⟨B, none⟩ : Piece 2)).map (·.rays) = c'.2 := by
        rw [List.map_map]
        exact List.map_id _
      show Triangulation ((c'.2.map fun B => (⟨B, none⟩ : Piece 2)).map (·.rays)) _
      rw [e]
      exact h) (fun c hc p hp => by
      obtain ⟨c', hc', rfl⟩ := List.mem_map.1 hc
      obtain ⟨B, hB, rfl⟩ := List.mem_map.1 hp
      refine ⟨rfl, fun i => ?_⟩
      simp only [Triangle.cones, List.mem_cons, List.not_mem_nil, or_false] at hc'
      have hprim : ∀ v : Vec 2, v 0 = 1 ∨ v 0 = -1 ∨ v 1 = -1 → Prim v := by
        intro v hv d hd
        rcases hv with h | h | h
        · exact isUnit_of_dvd_one (h ▸ hd 0)
        · exact isUnit_of_dvd_unit (h ▸ hd 0) (by decide)
        · exact isUnit_of_dvd_unit (h ▸ hd 1) (by decide)
      apply hprim
      rcases hc' with rfl | rfl | rfl <;> simp only [List.mem_singleton] at hB <;> subst hB <;> fin_cases i <;> simp)
  simpa [Triangle.S] using this

/-! ### Bounds and exact values -/

/-- The two totals and the number of cones on the heap. -/
def totals {m : ℕ} (r : Except Fail (State (m + 1))) : Option (ℚ × ℚ × ℕ) :=
  match r with
  | .ok s => some (s.lower, s.upper, s.heap.length)
  | .error _ => none

/-- With index bound 1 the cone with rays (1,0), (1,2), which has index 2, goes to the heap with its bounds. -/
example : totals (evaluateCone Smith.stdX 1 2 (![1, 3] : Vec 2) ⟨0, 0, []⟩ exCone) = some (-72 / 7, 557 / 42, 1) := by decide +kernel

/-- With index bound 2 its value is computed; it lies between these bounds. -/
example : totals (evaluateCone Smith.stdX 2 3 (![1, 3] : Vec 2) ⟨0, 0, []⟩ exCone) = some (23 / 42, 23 / 42, 0) := by decide +kernel

/-! ### What goes wrong -/

/-- The cones of the interval from `0` to `7/2`, whose upper end is given by `p x ≤ 7p/2`. -/
def interval (p : ℤ) : List ((Fin 1 → ℚ) × List (Piece 1)) := [(![7 / 2], [⟨!![p], none⟩]), (![0], [⟨!![-1], none⟩])]

theorem interval_lattice : LatticePoints (![![2], ![-1]] : Fin 2 → Vec 1) ![7, 0] [![0], ![1], ![2], ![3]] := by
  refine ⟨by decide, fun z => ?_⟩
  have hz : z = ![z 0] := by funext k; fin_cases k; rfl
  have h2 : (∀ i : Fin 2, ∑ k, (((![![2], ![-1]] : Fin 2 → Vec 1) i k : ℤ) : ℚ) * (z k : ℚ) ≤ (![7, 0] : Fin 2 → ℚ) i) ↔ 2 * z 0 ≤ 7 ∧ 0 ≤ z 0 := by
    rw [Fin.forall_fin_succ, Fin.forall_fin_one]
    simp
    intro _
    constructor
    · intro h
      have : ((2 * z 0 : ℤ) : ℚ) ≤ ((7 : ℤ) : ℚ) := by push_cast; linarith
      exact Int.cast_le.1 this
    · intro h
      have : ((2 * z 0 : ℤ) : ℚ) ≤ ((7 : ℤ) : ℚ) := Int.cast_le.2 h
      push_cast at this
      linarith
  rw [h2]
  constructor
  · intro h
    simp only [List.mem_cons, List.not_mem_nil, or_false] at h
    rcases h with rfl | rfl | rfl | rfl <;> simp
  · rintro ⟨h3, h4⟩
    have h5 : z 0 ≤ 3 := by omega
    rw [hz]
    interval_cases z 0 <;> simp

/-- **C85 violated.** If the ray of the dual cone is the row `2` of the inequality `2 x ≤ 7`, not divided by its gcd, both final bounds are 1, although the interval
contains four lattice points; with the primitive ray they are 4. -/
theorem c85_not_primitive_wrong (N : Ntl 1) (pick : Pick 1) (rounds : ℕ) :
    (LatticePoints (![![2], ![-1]] : Fin 2 → Vec 1) ![7, 0] [![0], ![1], ![2], ![3]]) ∧
    totals (approximate N Smith.stdX .irrationalPrimal (irrVertex fun _ => 2) 1 2 (rounds + 1) ![1] pick (interval 2)).1 = some (1, 1, 0) ∧
    totals (approximate N Smith.stdX .irrationalPrimal (irrVertex fun _ => 2) 1 2 (rounds + 1) ![1] pick (interval 1)).1 = some (4, 4, 0) := by
  have key : ∀ (p : ℤ) (q : ℚ), totals (consumeCones Smith.stdX .irrationalPrimal (irrVertex fun _ => 2) 1 2 ![1] (interval p) ⟨0, 0, []⟩) = some (q, q, 0) →
      totals (approximate N Smith.stdX .irrationalPrimal (irrVertex fun _ => 2) 1 2 (rounds + 1) ![1] pick (interval p)).1 = some (q, q, 0) := by
    intro p q h
    unfold approximate
    cases hc : consumeCones Smith.stdX .irrationalPrimal (irrVertex fun _ => 2) 1 2 ![1] (interval p) ⟨0, 0, []⟩ with
    | error e => rw [hc] at h; cases h
    | ok s =>
      rw [hc] at h
      have hs : s.heap = [] := by
        have : s.heap.length = 0 := by
          simp only [totals, Option.some.injEq, Prod.mk.injEq] at h
          exact h.2.2
        exact List.length_eq_zero_iff.1 this
      show totals (run N Smith.stdX 1 2 ![1] pick (rounds + 1) s).1 = _
      unfold run
      rw [hs]
      exact h
  exact ⟨interval_lattice, key 2 1 (by decide +kernel), key 1 4 (by decide +kernel)⟩

/-- **C85 violated.** With the inequalities known (the default way to compute the vertex cones), a simplicial dual cone arrives with its facets; its divisors are not
computed, and the program reads beyond the end of an empty vector: no bound is ever shown if the first vertex cone is simplicial. -/
theorem c85_known_facets_undefined {m : ℕ} (N : Ntl (m + 1)) (X : Smith.Xgcd) (irr : Cone (m + 1) → Fin (m + 1) → ℚ) (maxDet : ℤ) (fuel rounds : ℕ)
    (lam : Vec (m + 1)) (pick : Pick (m + 1)) (vertex : Fin (m + 1) → ℚ) (B F : Mat (m + 1)) (hgen : ∀ i, ip lam (F i) ≠ 0)
    (cones : List ((Fin (m + 1) → ℚ) × List (Piece (m + 1)))) :
    approximate N X .irrationalPrimal irr maxDet fuel rounds lam pick ((vertex, [⟨B, some F⟩]) :: cones) = (.error .undefined, []) := by
  obtain ⟨w, P, hw, -⟩ := residueWeights_ok lam F hgen
  have : consumeCone X .irrationalPrimal irr maxDet fuel lam vertex ⟨0, 0, []⟩ ⟨B, some F⟩ = .error .undefined := by
    unfold consumeCone
    simp only [hw]
  unfold approximate consumeCones consumePieces
  rw [this]

/-- **C85 violated.** A vector orthogonal to a ray is not replaced: nothing is computed, although other vectors would do. -/
theorem c85_orthogonal_vector {m : ℕ} (N : Ntl (m + 1)) (X : Smith.Xgcd) (irr : Cone (m + 1) → Fin (m + 1) → ℚ) (maxDet : ℤ) (fuel rounds : ℕ)
    (lam : Vec (m + 1)) (pick : Pick (m + 1)) (vertex : Fin (m + 1) → ℚ) (B : Mat (m + 1)) (D : Cone (m + 1))
    (hD : dualizeCone ⟨1, vertex, B, 0, none, 0, 0⟩ = some D) (i : Fin (m + 1)) (hi : ip lam (D.rays i) = 0)
    (cones : List ((Fin (m + 1) → ℚ) × List (Piece (m + 1)))) :
    approximate N X .irrationalPrimal irr maxDet fuel rounds lam pick ((vertex, [⟨B, none⟩]) :: cones) = (.error .notGeneric, []) := by
  have hw := residueWeights_notGeneric lam D.rays i hi
  have : consumeCone X .irrationalPrimal irr maxDet fuel lam vertex ⟨0, 0, []⟩ ⟨B, none⟩ = .error .notGeneric := by
    unfold consumeCone
    simp only [hD]
    unfold evaluateCone
    by_cases hd : |D.determinant| ≤ maxDet
    · rw [if_pos (by exact hd)]
      unfold residueSingle
      simp only [hw]
      rfl
    · rw [if_neg (by exact hd)]
      unfold approxData
      simp only [hw]
  unfold approximate consumeCones consumePieces
  rw [this]

end Verif.Approx
