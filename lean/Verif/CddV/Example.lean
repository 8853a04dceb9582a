import Verif.CddV.Primal
import Verif.Regular.CountExample

/-!
# Example for C88

The triangle `x ≥ 0`, `y ≥ 0`, `x + 2 y ≤ 2` with the files that cdd writes for it; every vertex is adjacent to the two others, so the lists are inverted.
-/

namespace Verif.CddV

open Verif.Barvinok Verif.Barvinok.Spec Verif.Brion Verif.Ti2 Verif.Regular Verif.ExpSubst

/-- The vertices `(0, 0)`, `(2, 0)`, `(0, 1)`. -/
def exRows : List (List ℚ) := [[1, 0, 0], [1, 2, 0], [1, 0, 1]]

/-- `1 -2 : 1`, `2 -2 : 2`, `3 -2 : 3`. -/
def exEad : List Tok := [.int 1, .int (-2), .word, .int 1, .int 2, .int (-2), .word, .int 2, .int 3, .int (-2), .word, .int 3]

/-- The same with the lists of neighbours. -/
def exEadPlain : List Tok :=
  [.int 1, .int 2, .word, .int 2, .int 3, .int 2, .int 2, .word, .int 3, .int 1, .int 3, .int 2, .word, .int 1, .int 2]

/-- The cones as lists. -/
def asLists : Outcome 2 → Option (List (List ℚ × List (List ℤ)))
  | .cones l => some (l.map fun C => (List.ofFn C.vertex, C.rays.map fun r => List.ofFn r))
  | _ => none

/-- The rays are primitive: from `(2, 0)` to `(0, 1)` goes `(-2, 1)`, from `(2, 0)` to the origin `(-1, 0)`. -/
example : asLists (computeVertexCones exRows exEad) =
    some [([0, 0], [[1, 0], [0, 1]]), ([2, 0], [[-1, 0], [-2, 1]]), ([0, 1], [[0, -1], [2, -1]])] := by decide +kernel

example : asLists (computeVertexCones exRows exEadPlain) =
    some [([0, 0], [[1, 0], [0, 1]]), ([2, 0], [[-2, 1], [-1, 0]]), ([0, 1], [[0, -1], [2, -1]])] := by decide +kernel

/-- A wrong numbering ends the program. -/
example : (match (computeVertexCones exRows (.int 2 :: exEad) : Outcome 2) with | .stop => true | _ => false) = true := by decide +kernel

theorem ex_mem (x : Fin 2 → ℝ) : x ∈ Polyhedron exIneqs ↔ 0 ≤ x 0 ∧ 0 ≤ x 1 ∧ x 0 + 2 * x 1 ≤ 2 := by
  show (∀ q ∈ exIneqs, _) ↔ _
  simp [exIneqs, dot, Fin.sum_univ_two]
  intro _ _
  constructor <;> intro h <;> linarith

theorem ex_bounded : Bornology.IsBounded (Polyhedron exIneqs) := by
  refine (Metric.isBounded_iff_subset_closedBall 0).2 ⟨2, fun x hx => ?_⟩
  rw [ex_mem] at hx
  rw [mem_closedBall_zero_iff, pi_norm_le_iff_of_nonneg (by norm_num)]
  intro k
  rw [Real.norm_eq_abs, abs_le]
  fin_cases k
  · exact ⟨by show -2 ≤ x 0; linarith [hx.1], by show x 0 ≤ 2; linarith [hx.2.1, hx.2.2]⟩
  · exact ⟨by show -2 ≤ x 1; linarith [hx.2.1], by show x 1 ≤ 2; linarith [hx.1, hx.2.2]⟩

/-- The vertices. -/
def exVs : List (Fin 2 → ℚ) := [![0, 0], ![2, 0], ![0, 1]]

theorem ex_points : exRows.map rowPoint = exVs := by decide +kernel

theorem ex_edge : ∀ v ∈ exVs, ∀ w ∈ exVs, v ≠ w → Edge (Polyhedron exIneqs) v w := by
  -- a segment that is the part of the triangle on which a linear function is largest
  have key : ∀ (f : (Fin 2 → ℝ) → ℝ) (v w : Fin 2 → ℚ), v ≠ w → (∀ x y : Fin 2 → ℝ, ∀ s t : ℝ, f (s • x + t • y) = s * f x + t * f y) →
      (∀ x ∈ Polyhedron exIneqs, f x ≤ f (real v)) → (∀ x ∈ Polyhedron exIneqs, f x = f (real v) → x ∈ segment ℝ (real v) (real w)) →
      real v ∈ Polyhedron exIneqs → real w ∈ Polyhedron exIneqs → f (real w) = f (real v) → Edge (Polyhedron exIneqs) v w := by
    intro f v w hne hlin hmax hon hv hw hfw
    have hval : ∀ x ∈ segment ℝ (real v) (real w), x ∈ Polyhedron exIneqs ∧ f x = f (real v) := by
      rintro x ⟨s, t, hs, ht, hst, rfl⟩
      constructor
      · rw [ex_mem] at hv hw ⊢
        simp only [Pi.add_apply, Pi.smul_apply, smul_eq_mul]
        refine ⟨by nlinarith [hv.1, hw.1], by nlinarith [hv.2.1, hw.2.1], ?_⟩
        nlinarith [mul_le_mul_of_nonneg_left hv.2.2 hs, mul_le_mul_of_nonneg_left hw.2.2 ht]
      · rw [hlin, hfw, ← add_mul, hst, one_mul]
    refine ⟨hne, fun x hx => (hval x hx).1, ?_⟩
    intro x hx y hy z hz ho
    have h1 := (hval z hz).2
    obtain ⟨s, t, hs, ht, hst, rfl⟩ := ho
    rw [hlin] at h1
    refine hon x hx (le_antisymm (hmax x hx) ?_)
    by_contra hlt
    push Not at hlt
    have h2 : s * f x < s * f (real v) := by nlinarith
    have h3 : t * f y ≤ t * f (real v) := mul_le_mul_of_nonneg_left (hmax y hy) ht.le
    have h4 : s * f (real v) + t * f (real v) = f (real v) := by rw [← add_mul, hst, one_mul]
    linarith
  have r00 : real ![0, 0] = ![0, 0] := by funext k; fin_cases k <;> simp [real]
  have r20 : real ![2, 0] = ![2, 0] := by funext k; fin_cases k <;> simp [real]
  have r01 : real ![0, 1] = ![0, 1] := by funext k; fin_cases k <;> simp [real]
  have m00 : (![0, 0] : Fin 2 → ℝ) ∈ Polyhedron exIneqs := by rw [ex_mem]; simp
  have m20 : (![2, 0] : Fin 2 → ℝ) ∈ Polyhedron exIneqs := by rw [ex_mem]; simp
  have m01 : (![0, 1] : Fin 2 → ℝ) ∈ Polyhedron exIneqs := by rw [ex_mem]; simp
  have e1 : Edge (Polyhedron exIneqs) ![0, 0] ![2, 0] := by
    refine key (fun x => -x 1) _ _ (by decide) (fun x y s t => by simp; ring) ?_ ?_ (by rw [r00]; exact m00) (by rw [r20]; exact m20) (by simp [r00, r20])
    · intro x hx; rw [ex_mem] at hx; simp [r00]; exact hx.2.1
    · intro x hx h
      rw [ex_mem] at hx
      have h0 : x 1 = 0 := by simpa [r00] using h
      rw [r00, r20]
      refine ⟨1 - x 0 / 2, x 0 / 2, by linarith [hx.2.2], by linarith [hx.1], by ring, ?_⟩
      funext k; fin_cases k
      · simp
      · simp [h0]
  have e2 : Edge (Polyhedron exIneqs) ![0, 0] ![0, 1] := by
    refine key (fun x => -x 0) _ _ (by decide) (fun x y s t => by simp; ring) ?_ ?_ (by rw [r00]; exact m00) (by rw [r01]; exact m01) (by simp [r00, r01])
    · intro x hx; rw [ex_mem] at hx; simp [r00]; exact hx.1
    · intro x hx h
      rw [ex_mem] at hx
      have h0 : x 0 = 0 := by simpa [r00] using h
      rw [r00, r01]
      refine ⟨1 - x 1, x 1, by linarith [hx.2.2], by linarith [hx.2.1], by ring, ?_⟩
      funext k; fin_cases k
      · simp [h0]
      · simp
  have e3 : Edge (Polyhedron exIneqs) ![2, 0] ![0, 1] := by
    refine key (fun x => x 0 + 2 * x 1) _ _ (by decide) (fun x y s t => by simp; ring) ?_ ?_ (by rw [r20]; exact m20) (by rw [r01]; exact m01) (by simp [r20, r01])
    · intro x hx; rw [ex_mem] at hx; simp [r20]; exact hx.2.2
    · intro x hx h
      rw [ex_mem] at hx
      have h0 : x 0 + 2 * x 1 = 2 := by simpa [r20] using h
      rw [r20, r01]
      refine ⟨1 - x 1, x 1, by linarith [hx.1], by linarith [hx.2.1], by ring, ?_⟩
      funext k; fin_cases k
      · simp; linarith
      · simp
  have sym : ∀ v w : Fin 2 → ℚ, Edge (Polyhedron exIneqs) v w → Edge (Polyhedron exIneqs) w v := fun v w h => ⟨h.1.symm, by rw [segment_symm]; exact h.2⟩
  intro v hv w hw hne
  simp only [exVs, List.mem_cons, List.not_mem_nil, or_false] at hv hw
  rcases hv with rfl | rfl | rfl <;> rcases hw with rfl | rfl | rfl
  · exact absurd rfl hne
  · exact e1
  · exact e2
  · exact sym _ _ e1
  · exact absurd rfl hne
  · exact e3
  · exact sym _ _ e2
  · exact sym _ _ e3
  · exact absurd rfl hne

theorem ex_adjacent (i k : ℤ) (hi : 1 ≤ i ∧ i ≤ 3) : Adjacent (Polyhedron exIneqs) exVs i k ↔ 1 ≤ k ∧ k ≤ 3 ∧ k ≠ i := by
  constructor
  · intro h
    have h1 := adjacent_range _ _ _ _ h
    refine ⟨h1.1, h1.2, ?_⟩
    rintro rfl
    obtain ⟨a, b, v, w, ha, hb, hv, hw, he⟩ := h
    obtain rfl : a = b := by omega
    rw [hv] at hw
    exact he.1 (Option.some.inj hw)
  · rintro ⟨h1, h2, hne⟩
    have hv : (i - 1).toNat < exVs.length := by show (i - 1).toNat < 3; omega
    have hw : (k - 1).toNat < exVs.length := by show (k - 1).toNat < 3; omega
    refine ⟨(i - 1).toNat, (k - 1).toNat, exVs[(i - 1).toNat], exVs[(k - 1).toNat], by omega, by omega, List.getElem?_eq_getElem hv, List.getElem?_eq_getElem hw,
      ex_edge _ (List.getElem_mem _) _ (List.getElem_mem _) fun h => ?_⟩
    have hn : exVs.Nodup := by decide +kernel
    have := (List.nodup_iff_injective_get.1 hn) (a₁ := ⟨_, hv⟩) (a₂ := ⟨_, hw⟩) h
    simp only [Fin.mk.injEq] at this
    omega

theorem ex_normals : normals exIneqs = Triangle.a := by
  funext i k
  have h : ∀ (i : Fin 3) (k : Fin 2), normals exIneqs i k = Triangle.a i k := by intro i k; fin_cases i <;> fin_cases k <;> rfl
  exact h i k

theorem ex_sides : sides exIneqs = Triangle.b := by
  funext i
  have h : ∀ i : Fin 3, sides exIneqs i = Triangle.b i := by intro i; fin_cases i <;> rfl
  exact h i

theorem ex_vertexList : IsVertexList (normals exIneqs) (sides exIneqs) exVs := by
  have h : IsVertexList (N := 3) (normals exIneqs) (sides exIneqs) exVs := by
    rw [ex_normals, ex_sides]
    have := Triangle.vertices
    rwa [show Triangle.cones.map (·.1) = exVs from rfl] at this
  exact h

/-- The files meet the contract, so the theorems apply to them. -/
theorem ex_cddOk : CddOk exIneqs exRows exEad := by
  refine ⟨by decide, ?_, ?_, fun _ => by rw [ex_points]; exact ex_vertexList, fun _ => ?_⟩
  · intro row hr
    right
    revert row
    decide +kernel
  · constructor
    · rintro ⟨row, hr, h⟩
      exfalso
      revert row
      decide +kernel
    · rintro ⟨-, h⟩
      exact absurd ex_bounded h
  · refine ⟨[[.int 1, .int (-2), .word, .int 1], [.int 2, .int (-2), .word, .int 2], [.int 3, .int (-2), .word, .int 3]], rfl, rfl, ?_⟩
    intro i line hi
    obtain ⟨hi', hi⟩ := List.getElem?_eq_some_iff.1 hi
    have hi3 : i < 3 := hi'
    rw [ex_points]
    refine ⟨-2, [(i : ℤ) + 1], ?_, Or.inr ⟨by norm_num, rfl, by simp, fun k => ?_⟩⟩
    · rw [← hi]
      interval_cases i <;> rfl
    · rw [ex_adjacent _ _ (by omega), List.mem_singleton]
      show k = (i : ℤ) + 1 ↔ 1 ≤ k ∧ k ≤ ((3 : ℕ) : ℤ) ∧ ¬ (1 ≤ k ∧ k ≤ 3 ∧ k ≠ i + 1)
      omega

/-- The half-line `x ≥ 1`: a vertex and a direction. -/
theorem ex_halfline : CddOk [(-1, ![1])] [[1, 1], [0, 1]] [] := by
  refine ⟨by decide, ?_, ⟨fun _ => ⟨?_, ?_⟩, fun _ => ⟨[0, 1], by simp, rfl⟩⟩, fun h => absurd rfl (h [0, 1] (by simp)), fun h => absurd rfl (h [0, 1] (by simp))⟩
  · intro row hr
    revert row
    decide +kernel
  · exact ⟨fun _ => 1, fun q hq => by rw [List.mem_singleton.1 hq]; simp [dot]⟩
  · refine unbounded_of_recession (y := fun _ => 1) ⟨fun h => ?_, fun q hq => by rw [List.mem_singleton.1 hq]; simp [dot]⟩
      (x := fun _ => 1) (fun q hq => by rw [List.mem_singleton.1 hq]; simp [dot])
    have := congrFun h 0
    simp at this

/-- It contains all positive integers, and the number written is 0. -/
theorem c88_halfline_violation : (∀ z : ℤ, 1 ≤ z → (fun _ => (z : ℝ)) ∈ Polyhedron [(-1, (![1] : Vec 1))]) ∧
    (computeVertexCones [[1, 1], [0, 1]] [] : Outcome 1) = .done (some 0) := by
  refine ⟨fun z hz q hq => ?_, rfl⟩
  rw [List.mem_singleton.1 hq]
  have : (1 : ℝ) ≤ z := by exact_mod_cast hz
  simp [dot]
  linarith

/-- One vertex: the polytope `2 x = 1`. -/
example : (match (computeVertexCones [[1, 1 / 2]] [] : Outcome 1) with | .done (some k) => decide (k = 0) | _ => false) = true := by decide +kernel

example : (match (computeVertexCones [[1, -12, 5]] [] : Outcome 2) with | .done (some k) => decide (k = 1) | _ => false) = true := by decide +kernel

end Verif.CddV
