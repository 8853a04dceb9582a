import Verif.Irrational.Lemmas
import Mathlib.LinearAlgebra.Matrix.AbsoluteValue
import Mathlib.Algebra.EuclideanDomain.Int

/-!
# Properties C41 and C63: equivalent vertices, irrational vertices
-/

namespace Verif.Irrational

open Verif.Barvinok Verif.Barvinok.Spec

variable {n : ℕ}

/-- Specification: the lattice point `z` lies in the cone `{x | ⟨f, x - v⟩ ≤ 0 for all facets f}` with vertex `v`. -/
def InCone (F : List (Vec n)) (v : Fin n → ℚ) (z : Vec n) : Prop := ∀ f ∈ F, ((∑ k, f k * z k : ℤ) : ℚ) ≤ dotQ f v

/-- Specification: an integer vector whose coordinates have no common divisor. -/
def Primitive (f : Vec n) : Prop := ∀ e : ℤ, (∀ k, e ∣ f k) → IsUnit e

theorem primitive_bezout (f : Vec n) (hf : Primitive f) (m : ℤ) : ∃ z : Vec n, ∑ k, f k * z k = m := by
  have hg : Submodule.IsPrincipal.generator (Ideal.span (Set.range f)) ∣ 1 := by
    apply (hf _ _).dvd
    intro k
    exact (Submodule.IsPrincipal.mem_iff_generator_dvd _).1 (Ideal.subset_span ⟨k, rfl⟩)
  have h1 : (1 : ℤ) ∈ Ideal.span (Set.range f) := (Submodule.IsPrincipal.mem_iff_generator_dvd _).2 hg
  have hm : m ∈ Ideal.span (Set.range f) := by
    have := Ideal.mul_mem_left _ m h1
    rwa [mul_one] at this
  rw [Ideal.mem_span_range_iff_exists_fun] at hm
  obtain ⟨c, hc⟩ := hm
  exact ⟨c, by rw [← hc]; exact Finset.sum_congr rfl fun k _ => mul_comm _ _⟩

/-- **C41** If the check accepts the replacement of the vertex `v` of a cone by `w`, the cone with vertex `v` and the cone
with vertex `w` contain the same lattice points.  (Any number of facets, any rational vertices.) -/
theorem c41_equivalent_sound (F : List (Vec n)) (v w : Fin n → ℚ) (h : integerEquivalent F v w = true) (z : Vec n) :
    InCone F v z ↔ InCone F w z := by
  rw [equivalent_iff] at h
  refine forall₂_congr fun f hf => ?_
  rw [← Int.le_floor, ← Int.le_floor, h f hf]

/-- **C41** For primitive facet normals the check is exact: it accepts if and only if for every facet the half spaces at
both vertices contain the same lattice points. -/
theorem c41_equivalent_exact (F : List (Vec n)) (hF : ∀ f ∈ F, Primitive f) (v w : Fin n → ℚ) :
    integerEquivalent F v w = true ↔ ∀ f ∈ F, ∀ z : Vec n, InCone [f] v z ↔ InCone [f] w z := by
  constructor
  · intro h f hf z
    refine c41_equivalent_sound [f] v w ?_ z
    rw [equivalent_iff] at h ⊢
    intro g hg
    rw [List.mem_singleton.1 hg]
    exact h f hf
  · intro h
    rw [equivalent_iff]
    intro f hf
    have key : ∀ m : ℤ, (m : ℚ) ≤ dotQ f v ↔ (m : ℚ) ≤ dotQ f w := by
      intro m
      obtain ⟨z, hz⟩ := primitive_bezout f (hF f hf) m
      have := h f hf z
      simpa only [InCone, List.mem_singleton, forall_eq, hz] using this
    apply le_antisymm
    · rw [Int.le_floor]; exact (key _).1 (Int.floor_le _)
    · rw [Int.le_floor]; exact (key _).2 (Int.floor_le _)

/-- **C41** The test for irrationality: for primitive facet normals it accepts if and only if no facet hyperplane through
the vertex contains a lattice point. -/
theorem c41_irrational_exact (F : List (Vec n)) (hF : ∀ f ∈ F, Primitive f) (v : Fin n → ℚ) :
    irrational F v = true ↔ ∀ f ∈ F, ∀ z : Vec n, ((∑ k, f k * z k : ℤ) : ℚ) ≠ dotQ f v := by
  rw [irrational_iff]
  refine forall₂_congr fun f hf => ?_
  constructor
  · exact fun h z hz => h _ hz.symm
  · intro h m hm
    obtain ⟨z, hz⟩ := primitive_bezout f (hF f hf) m
    exact h z (by rw [hz, hm])

/-- non-vacuity: two equivalent vertices of a cone in the plane, and two that are not -/
example : integerEquivalent [![1, 0], ![-2, 3]] ![1/3, 1/2] (![1/2, 3/5] : Fin 2 → ℚ) = true := by
  rw [equivalent_iff]
  simp only [List.mem_cons, List.not_mem_nil, or_false, forall_eq_or_imp, forall_eq, dotQ, Fin.sum_univ_two]
  norm_num [Int.floor_eq_iff]
example : ¬ integerEquivalent [![1, 0], ![-2, 3]] ![1/3, 1/2] (![1/2, 1/4] : Fin 2 → ℚ) = true := by
  rw [equivalent_iff]
  simp only [List.mem_cons, List.not_mem_nil, or_false, forall_eq_or_imp, forall_eq, dotQ, Fin.sum_univ_two]
  norm_num [Int.floor_eq_iff]
example : Primitive (![-2, 3] : Vec 2) := by
  intro e he
  have h0 : e ∣ -2 := he 0
  have h1 : e ∣ 3 := he 1
  exact isUnit_of_dvd_one (by have := dvd_add h0 h1; simpa using this)

/-! ### C63 -/

theorem dot_rel (f : Vec n) (z : Vec n) (v : Fin n → ℚ) :
    dot f (rel z v) = (((∑ k, f k * z k : ℤ) : ℚ) - dotQ f v : ℚ) := by
  unfold dot rel dotQ
  push_cast
  rw [← Finset.sum_sub_distrib]
  exact Finset.sum_congr rfl fun k _ => by ring

theorem mem_cone_inCone (C : Cone n) (hC : Wf C) (F : Mat n) (hF : C.facets = some F) (v : Fin n → ℚ) (z : Vec n) :
    rel z v ∈ cone C.rays ↔ InCone (rowList F) v z := by
  obtain ⟨F', hF', hdual, -⟩ := hC.facets
  obtain rfl : F = F' := by rw [hF] at hF'; exact Option.some.inj hF'
  rw [mem_cone_iff C.rays F C.facetDivisors hC.det_ne hC.div_pos hdual]
  have key : ∀ j, dot (F j) (rel z v) ≤ 0 ↔ ((∑ k, F j k * z k : ℤ) : ℚ) ≤ dotQ (F j) v := by
    intro j
    rw [dot_rel, show ((0 : ℝ)) = ((0 : ℚ) : ℝ) by norm_num, Rat.cast_le, sub_nonpos]
  constructor
  · intro h f hf
    obtain ⟨j, -, rfl⟩ := List.mem_map.1 hf
    exact (key j).1 (h j)
  · exact fun h j => (key j).2 (h (F j) (List.mem_map.2 ⟨j, List.mem_finRange j, rfl⟩))

theorem wf_vertex {C : Cone n} (hC : Wf C) (w : Fin n → ℚ) : Wf { C with vertex := w } :=
  ⟨hC.det_eq, hC.det_ne, hC.facets, hC.div_pos, hC.div_dvd⟩

theorem irrationalize_spec (depth : Cone n → ℕ) (C : Cone n) (hC : Wf C) (hn : 0 < n) :
    ∃ F c c', C.facets = some F ∧ simplicialCube C F = some c ∧ 0 < c.lengthNum ∧ 0 < c.lengthDen ∧
      simplifyCube c = some c' ∧
      irrationalizeSimplicial depth C =
        some { C with vertex := newVertex c' (bitsOfM n (depth C) (maxCoord (rowList C.rays))) } ∧
      integerEquivalent (rowList F) C.vertex (newVertex c' (bitsOfM n (depth C) (maxCoord (rowList C.rays)))) = true ∧
      irrational (rowList F) (newVertex c' (bitsOfM n (depth C) (maxCoord (rowList C.rays)))) = true := by
  obtain ⟨F, hF, -⟩ := hC.facets
  obtain ⟨c, hc, h1, h2, hst⟩ := simplicialCube_stable C hC hn F hF
  obtain ⟨c', hc', hgood⟩ := newVertex_good (rowList F) C.vertex c h1 h2 hst
  obtain ⟨g1, g2, g3⟩ := hgood (bitsOfM n (depth C) (maxCoord (rowList C.rays)))
  refine ⟨F, c, c', hF, hc, h1, h2, hc', ?_, g2, g3⟩
  unfold irrationalizeSimplicial
  simp only [hF, Option.isSome_some, if_true, hc, Option.bind_some, hc', g1]

/-- **C63** For every simplicial cone with its facets, every rational vertex and every estimate of the depth, moving the
vertex never fails (none of its assertions does), changes nothing but the vertex, keeps the set of lattice points of the
cone, and afterwards no facet hyperplane contains a lattice point. -/
theorem c63_simplicial (depth : Cone n → ℕ) (C : Cone n) (hC : Wf C) (hn : 0 < n) :
    ∃ w, irrationalizeSimplicial depth C = some { C with vertex := w } ∧
      (∀ z : Vec n, rel z w ∈ cone C.rays ↔ rel z C.vertex ∈ cone C.rays) ∧
      (∀ z : Vec n, ¬ OnFacetPlane C.rays (rel z w)) ∧ isConeIrrational { C with vertex := w } := by
  obtain ⟨F, c, c', hF, -, -, -, -, hirr, he, hi⟩ := irrationalize_spec depth C hC hn
  have hic : isConeIrrational { C with vertex := newVertex c' (bitsOfM n (depth C) (maxCoord (rowList C.rays))) } :=
    (isConeIrrational_iff { C with vertex := newVertex c' (bitsOfM n (depth C) (maxCoord (rowList C.rays))) } F hF).2 hi
  refine ⟨_, hirr, fun z => ?_, fun z => ?_, hic⟩
  · rw [mem_cone_inCone C hC F hF, mem_cone_inCone C hC F hF]
    exact (c41_equivalent_sound _ _ _ he z).symm
  · obtain ⟨F', hF', hdual, -⟩ := hC.facets
    exact rel_off_planes { C with vertex := newVertex c' (bitsOfM n (depth C) (maxCoord (rowList C.rays))) } hC.det_ne F'
      hF' hC.div_pos hdual hic z

/-- **C63** The same for a cone with any list of non-zero facet normals, provided it is full-dimensional (`u` is the
negative of a direction in its interior) and the LP solver keeps its contract. -/
theorem c63_general (lp : Solver n) (hlp : SolverOk lp) (depth : ℕ) (rays F : List (Vec n)) (hF : F ≠ [])
    (h0 : ∀ f ∈ F, f ≠ 0) (v u : Fin n → ℚ) (hu : ∀ f ∈ F, 0 < dotQ f u) :
    ∃ w, irrationalizeGeneral lp depth rays F v = some w ∧ (∀ z : Vec n, InCone F w z ↔ InCone F v z) ∧
      ∀ f ∈ F, ∀ z : Vec n, ((∑ k, f k * z k : ℤ) : ℚ) ≠ dotQ f w := by
  obtain ⟨h1, h2, hst⟩ := generalCube_stable lp hlp F hF h0 v u hu
  obtain ⟨c', hc', hgood⟩ := newVertex_good F v _ h1 h2 hst
  obtain ⟨g1, g2, g3⟩ := hgood (bitsOfM n depth (maxCoord rays))
  refine ⟨_, by unfold irrationalizeGeneral; simp only [hc', g1], fun z => (c41_equivalent_sound _ _ _ g2 z).symm, ?_⟩
  intro f hf z hz
  exact (irrational_iff _ _).1 g3 f hf _ hz.symm

/-! ### C64: the vertex stays irrational for the cones made by the recursion -/

theorem digits : ∀ (n : ℕ) (f : Fin (n + 1) → ℤ) (B : ℤ), (∀ i, |f i| < B) → ∀ E : ℤ,
    ∑ i : Fin (n + 1), f i * B ^ (n - i.val) = E * B ^ n → f 0 = E ∧ ∀ i, i ≠ 0 → f i = 0 := by
  intro n
  induction n with
  | zero =>
    intro f B _ E h
    refine ⟨by simpa using h, fun i hi => absurd (Fin.ext (by have := i.isLt; simp)) hi⟩
  | succ n ih =>
    intro f B hB E h
    have hBpos : 0 < B := lt_of_le_of_lt (abs_nonneg _) (hB 0)
    rw [Fin.sum_univ_castSucc] at h
    simp only [Fin.val_castSucc, Fin.val_last, Nat.sub_self, pow_zero, mul_one] at h
    have e : ∑ i : Fin (n + 1), f i.castSucc * B ^ (n + 1 - i.val) = B * ∑ i : Fin (n + 1), f i.castSucc * B ^ (n - i.val) := by
      rw [Finset.mul_sum]
      refine Finset.sum_congr rfl fun i _ => ?_
      rw [show n + 1 - i.val = (n - i.val) + 1 by omega, pow_succ]
      ring
    rw [e] at h
    have hlast : f (Fin.last (n + 1)) = 0 := by
      apply Int.eq_zero_of_abs_lt_dvd (m := B)
      · refine ⟨E * B ^ n - ∑ i : Fin (n + 1), f i.castSucc * B ^ (n - i.val), ?_⟩
        rw [pow_succ] at h
        linarith
      · exact hB _
    rw [hlast, add_zero, pow_succ, mul_comm B, ← mul_assoc] at h
    have := ih (fun i => f i.castSucc) B (fun i => hB _) E (mul_right_cancel₀ hBpos.ne' h)
    refine ⟨this.1, fun i hi => ?_⟩
    rcases Fin.eq_castSucc_or_eq_last i with ⟨j, rfl⟩ | rfl
    · exact this.2 j (by rintro rfl; exact hi rfl)
    · exact hlast

/-- No hyperplane with a primitive normal vector of size at most `2^k` through the new vertex contains a lattice point. -/
theorem newVertex_generic (c : Cube n) (h1 : 0 < c.lengthNum) (h2 : 0 < c.lengthDen) (c' : Cube n)
    (hc' : simplifyCube c = some c') (k : ℕ) (f : Vec n) (hf : Primitive f) (hb : ∀ i, |f i| ≤ 2 ^ k) (m : ℤ) :
    dotQ f (newVertex c' k) ≠ m := by
  obtain ⟨c'', j, hs, hn, hd, -, -, hdy⟩ := simplify_spec c h1 h2
  obtain rfl : c' = c'' := by rw [hc'] at hs; exact Option.some.inj hs
  choose z hz using hdy
  intro hm
  rcases n with _ | n
  · -- no coordinates: not primitive
    have := hf 0 (fun k => k.elim0)
    exact not_isUnit_zero this
  set B : ℤ := 2 ^ (k + 2) with hB
  have hBq : (B : ℚ) ≠ 0 := by rw [hB]; positivity
  set E : ℤ := 2 ^ (j + 2) * m - 2 * ∑ i, f i * z i with hE
  have key : ∑ i : Fin (n + 1), f i * B ^ (n - i.val) = E * B ^ n := by
    have hq : (∑ i : Fin (n + 1), (f i : ℚ) * (B : ℚ) ^ (n - i.val)) = (E : ℚ) * (B : ℚ) ^ n := by
      have e1 : ∀ i : Fin (n + 1), newVertex c' k i * 2 ^ (j + 2) = 2 * z i + 1 / (B : ℚ) ^ i.val := by
        intro i
        rw [newVertex_eq c' j k hn hd i, hz i, hB]
        push_cast
        rw [← pow_mul, mul_comm i.val (k + 2), pow_add _ j 2, pow_add _ j 1]
        field_simp
      have e2 : (m : ℚ) * 2 ^ (j + 2) = ∑ i, ((f i : ℚ) * (2 * z i) + f i * (1 / (B : ℚ) ^ i.val)) := by
        rw [← hm]
        unfold dotQ
        rw [Finset.sum_mul]
        refine Finset.sum_congr rfl fun i _ => ?_
        rw [mul_assoc, e1, mul_add]
      rw [Finset.sum_add_distrib] at e2
      have e3 : ∑ i : Fin (n + 1), (f i : ℚ) * (1 / (B : ℚ) ^ i.val) = E := by
        rw [hE]
        push_cast
        rw [Finset.mul_sum]
        have : ∑ i : Fin (n + 1), (2 : ℚ) * ((f i : ℚ) * z i) = ∑ i, (f i : ℚ) * (2 * z i) :=
          Finset.sum_congr rfl fun i _ => by ring
        rw [this]
        linarith
      rw [← e3, Finset.sum_mul]
      refine Finset.sum_congr rfl fun i _ => ?_
      have : (B : ℚ) ^ n = (B : ℚ) ^ (n - i.val) * (B : ℚ) ^ i.val := by
        rw [← pow_add]; congr 1; have := i.isLt; omega
      rw [this]
      field_simp
    exact_mod_cast hq
  have hlt : ∀ i, |f i| < B := fun i => lt_of_le_of_lt (hb i) (by
    rw [hB, pow_add]
    have : (0 : ℤ) < 2 ^ k := by positivity
    linarith)
  obtain ⟨hE0, hrest⟩ := digits n f B hlt E key
  have hu : IsUnit E := hf E fun i => by
    by_cases hi : i = 0
    · rw [hi, hE0]
    · rw [hrest i hi]; exact dvd_zero _
  have heven : (2 : ℤ) ∣ E := by
    rw [hE, pow_succ]
    exact ⟨2 ^ (j + 1) * m - ∑ i, f i * z i, by ring⟩
  have := isUnit_of_dvd_unit heven hu
  rw [Int.isUnit_iff] at this
  omega

end Verif.Irrational
