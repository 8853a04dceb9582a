import Verif.Brion.Cones
import Verif.ExpSubst.Total
import Verif.Irrational.Recursion

/-!
# C65: the lattice points of a polytope are counted correctly, end to end

The theorems C20 and C42 assume that the indicator functions of the given cones add up to that of the polytope.  Here this
is proved (Brion's theorem) for the cones the driver hands over: the tangent cones at the vertices, given by triangulations of their
duals (dual and irrational primal variants) or of themselves, at moved vertices (irrational all-primal variant).
-/

namespace Verif.Brion

open Verif.Barvinok Verif.Barvinok.Spec Verif.ExpSubst Verif.Irrational

variable {n N m : ℕ}

/-! ### Specification -/

/-- **Specification.** The inequalities that are equations at `v`. -/
def active (a : Fin N → Vec n) (b : Fin N → ℚ) (v : Fin n → ℚ) : Set (Fin N) := {i | ∑ k, (a i k : ℚ) * v k = b i}

/-- **Specification.** `S` lists the lattice points of `{x | aᵢ · x ≤ bᵢ}` without repetition. -/
structure LatticePoints (a : Fin N → Vec n) (b : Fin N → ℚ) (S : List (Vec n)) : Prop where
  nodup : S.Nodup
  mem : ∀ z, z ∈ S ↔ ∀ i, ∑ k, (a i k : ℚ) * (z k : ℚ) ≤ b i

/-- **Specification.** The listed points are the vertices of the polyhedron, without repetition. -/
structure IsVertexList (a : Fin N → Vec n) (b : Fin N → ℚ) (vs : List (Fin n → ℚ)) : Prop where
  nodup : vs.Nodup
  mem : ∀ x : Fin n → ℝ, (∃ v ∈ vs, x = fun k => (v k : ℝ)) ↔ x ∈ (Poly a fun i => (b i : ℝ)).extremePoints ℝ

/-- **Specification.** The directions of the tangent cone at `v`. -/
def tangent (a : Fin N → Vec n) (b : Fin N → ℚ) (v : Fin n → ℚ) : Set (Fin n → ℝ) := {y | ∀ i ∈ active a b v, dot (a i) y ≤ 0}

/-- **Specification.** The normal cone at `v`, generated by the normals of the active inequalities. -/
def normal (a : Fin N → Vec n) (b : Fin N → ℚ) (v : Fin n → ℚ) : Set (Fin n → ℝ) := coneOf a (active a b v)

/-! ### Model -/

/-- A vertex cone when all cones are about to be irrationalized (count.cpp 417–461): vertex, rays, facets, and the simplices
into which its rays are going to be triangulated (barvinok/dec.cpp, `barvinokDecomposition_Single`: triangulation does not look
at the vertex; simplification: the triangulation is part of the input and constrained by the specification). -/
structure VertexCone (n : ℕ) where
  vertex : Fin n → ℚ
  rays : List (Vec n)
  facets : List (Vec n)
  simplices : List (Mat n)

/-- `irrationalizeCones` (Irrational.cpp 343–350) on the cones of count.cpp:458, which have facets but no facet divisors; `depth` is
`estimate_barvinok_depth` (at least 1, Irrational.cpp:225–239); `none` is a failing assertion. -/
def irrationalizeCones (lp : Solver n) (depth : VertexCone n → ℕ) :
    List (VertexCone n) → Option (List ((Fin n → ℚ) × List (Mat n)))
  | [] => some []
  | C :: rest =>
    match irrationalizeGeneral lp (depth C) C.rays C.facets C.vertex with
    | none => none
    | some w =>
      match irrationalizeCones lp depth rest with
      | none => none
      | some out => some ((w, C.simplices) :: out)

/-! ### Brion's theorem at lattice points -/

theorem rel_zero (z : Vec n) : rel z 0 = fun k => (z k : ℝ) := by
  funext k
  simp [rel]

theorem dot_cast (f : Vec n) (v : Fin n → ℚ) : dot f (fun k => (v k : ℝ)) = ((∑ k, (f k : ℚ) * v k : ℚ) : ℝ) := by
  unfold dot
  push_cast
  rfl

theorem tangent_iff (a : Fin N → Vec n) (b : Fin N → ℚ) (v : Fin n → ℚ) (z : Vec n) :
    (rel z 0 ∈ TCone a (fun i => (b i : ℝ)) fun k => (v k : ℝ)) ↔ rel z v ∈ tangent a b v := by
  have key : ∀ i, dot (a i) (fun k => (v k : ℝ)) = (b i : ℝ) → (dot (a i) (rel z 0) ≤ (b i : ℝ) ↔ dot (a i) (rel z v) ≤ 0) := by
    intro i hi
    have : dot (a i) (rel z v) = dot (a i) (rel z 0) - b i := by
      rw [← hi]
      unfold dot rel
      rw [← Finset.sum_sub_distrib]
      refine Finset.sum_congr rfl fun k _ => ?_
      simp
      ring
    rw [this, sub_nonpos]
  have hact : ∀ i, dot (a i) (fun k => (v k : ℝ)) = (b i : ℝ) ↔ i ∈ active a b v := by
    intro i
    rw [dot_cast]
    exact Rat.cast_inj
  constructor
  · intro h i hi
    exact (key i ((hact i).2 hi)).1 (h i ((hact i).2 hi))
  · intro h i hi
    exact (key i hi).2 (h i ((hact i).1 hi))

theorem vertex_sum (a : Fin N → Vec n) (b : Fin N → ℚ) (vs : List (Fin n → ℚ)) (hvs : IsVertexList a b vs) (S : List (Vec n))
    (hS : LatticePoints a b S) : ∃ g ∈ negligible n, ∀ z : Vec n,
    (((vs.map fun v => ind (tangent a b v) (rel z v)).sum : ℤ) : ℚ) = (if z ∈ S then 1 else 0) + g z := by
  classical
  set emb : (Fin n → ℚ) → Fin n → ℝ := fun v k => (v k : ℝ) with hemb
  have hinj : Function.Injective emb := by
    intro v w h
    funext k
    have : (v k : ℝ) = (w k : ℝ) := congrFun h k
    exact_mod_cast this
  have hb := brion a (fun i => (b i : ℝ)) (vs.map emb).toFinset (by
    intro x
    rw [← hvs.mem x, List.mem_toFinset, List.mem_map]
    constructor
    · rintro ⟨v, hv, rfl⟩; exact ⟨v, hv, rfl⟩
    · rintro ⟨v, hv, rfl⟩; exact ⟨v, hv, rfl⟩)
  refine ⟨_, Submodule.neg_mem _ (restrict_negligible 0 hb), fun z => ?_⟩
  rw [Pi.neg_apply]
  have h1 : ∑ x ∈ (vs.map emb).toFinset, ind (TCone a (fun i => (b i : ℝ)) x) (rel z 0) =
      (vs.map fun v => ind (tangent a b v) (rel z v)).sum := by
    rw [List.sum_toFinset _ ((List.nodup_map_iff hinj).2 hvs.nodup), List.map_map]
    congr 1
    refine List.map_congr_left fun v _ => ?_
    unfold ind
    simp only [Function.comp, ← tangent_iff, hemb]
  have h2 : ind (Poly a fun i => (b i : ℝ)) (rel z 0) = if z ∈ S then 1 else 0 := by
    unfold ind
    have : (rel z 0 ∈ Poly a fun i => (b i : ℝ)) ↔ z ∈ S := by
      rw [hS.mem z, rel_zero]
      refine forall_congr' fun i => ?_
      have := dot_cast (a i) (fun k => (z k : ℚ))
      push_cast at this
      rw [this]
      show _ ≤ (b i : ℝ) ↔ _
      have e : ∑ k, (a i k : ℝ) * (z k : ℝ) = ((∑ k, (a i k : ℚ) * (z k : ℚ) : ℚ) : ℝ) := by push_cast; rfl
      rw [e]
      exact Rat.cast_le
    simp only [this]
  show (((vs.map fun v => ind (tangent a b v) (rel z v)).sum : ℤ) : ℚ) = (if z ∈ S then 1 else 0) +
    -(((ind (Poly a fun i => (b i : ℝ)) (rel z 0) - ∑ x ∈ (vs.map emb).toFinset, ind (TCone a (fun i => (b i : ℝ)) x) (rel z 0) : ℤ)) : ℚ)
  rw [h1, h2]
  split_ifs <;> push_cast <;> ring

/-! ### Dual and irrational primal variants -/

theorem dual_indicators (a : Fin (N) → Vec (m + 1)) (b : Fin N → ℚ) (cones : List ((Fin (m + 1) → ℚ) × List (Mat (m + 1))))
    (hvs : IsVertexList a b (cones.map (·.1))) (hT : ∀ c ∈ cones, Triangulation c.2 (normal a b c.1))
    (S : List (Vec (m + 1))) (hS : LatticePoints a b S) (v : Variant) (hv : v ≠ .irrationalAllPrimal) :
    ∃ g ∈ negligible (m + 1), ∀ z, (((cones.map fun c => (c.2.map fun B => inputInd v c.1 B z).sum).sum : ℤ) : ℚ) =
      (if z ∈ S then 1 else 0) + g z := by
  obtain ⟨g, hg, h⟩ := vertex_sum a b _ hvs S hS
  have hin : ∀ c (B : Mat (m + 1)) z, inputInd v c B z = ind (polar B) (rel z c) := by
    intro c B z
    cases v
    · rfl
    · rfl
    · exact absurd rfl hv
  have key : ∀ L : List ((Fin (m + 1) → ℚ) × List (Mat (m + 1))), (∀ c ∈ L, Triangulation c.2 (normal a b c.1)) →
      ∃ g ∈ negligible (m + 1), ∀ z, (((L.map fun c => (c.2.map fun B => inputInd v c.1 B z).sum).sum : ℤ) : ℚ) =
        (((L.map fun c => ind (tangent a b c.1) (rel z c.1)).sum : ℤ) : ℚ) + g z := by
    intro L
    induction L with
    | nil => intro _; exact ⟨0, Submodule.zero_mem _, fun z => by simp⟩
    | cons c L ih =>
      intro hL
      obtain ⟨g1, hg1, h1⟩ := ih fun c' hc' => hL c' (List.mem_cons_of_mem _ hc')
      have hp := polar_sum a (active a b c.1) c.2 (hL c List.mem_cons_self)
      refine ⟨_, Submodule.add_mem _ (restrict_negligible c.1 hp) hg1, fun z => ?_⟩
      have := h1 z
      simp only [List.map_cons, List.sum_cons, Pi.add_apply, hin] at this ⊢
      push_cast at this ⊢
      rw [this]
      unfold tangent
      ring
  obtain ⟨g', hg', h'⟩ := key cones hT
  refine ⟨_, Submodule.add_mem _ hg hg', fun z => ?_⟩
  rw [h' z, Pi.add_apply, ← add_assoc, ← h z, List.map_map]
  rfl

/-- **C65, dual decomposition.** For every polyhedron `{x | aᵢ · x ≤ bᵢ}` with finitely many lattice points: given its vertices, each with a
triangulation of its normal cone, every run of the counting procedure that finishes returns the number of lattice points, for every
index bound, every behaviour of the lattice reduction that keeps its contract, and every sequence of generic vectors. -/
theorem c65_count_dual (N' : Ntl (m + 1)) (hN : N'.Ok) (X : Smith.Xgcd) (irr : Cone (m + 1) → Fin (m + 1) → ℚ)
    (maxDet : ℤ) (h0 : maxDet ≠ 0) (hmax : maxDet ≤ Piped.intMax) (fuel : ℕ) (hfuel : maxDet < fuel)
    (a : Fin N → Vec (m + 1)) (b : Fin N → ℚ) (S : List (Vec (m + 1))) (hS : LatticePoints a b S)
    (cones : List ((Fin (m + 1) → ℚ) × List (Mat (m + 1)))) (hvs : IsVertexList a b (cones.map (·.1)))
    (hT : ∀ c ∈ cones, Triangulation c.2 (normal a b c.1)) (tries : ℕ) (guesses : ℕ → Vec (m + 1)) (r : ℤ)
    (h : decomposeAndCount N' X .dual irr maxDet fuel cones tries guesses = .ok r) : r = S.length := by
  obtain ⟨g, hg, hind⟩ := dual_indicators a b cones hvs hT S hS .dual (by decide)
  exact c42_restart N' hN X .dual irr (by intro h; cases h) maxDet h0 hmax fuel hfuel cones S hS.nodup g hg hind tries guesses r h

/-- **C65, irrational primal decomposition.** The same when every dual simplex is dualized back and its vertex moved by
`irrationalizeCone`. -/
theorem c65_count_irrationalPrimal (N' : Ntl (m + 1)) (hN : N'.Ok) (X : Smith.Xgcd) (depth : Cone (m + 1) → ℕ)
    (maxDet : ℤ) (h0 : maxDet ≠ 0) (hmax : maxDet ≤ Piped.intMax) (fuel : ℕ) (hfuel : maxDet < fuel)
    (a : Fin N → Vec (m + 1)) (b : Fin N → ℚ) (S : List (Vec (m + 1))) (hS : LatticePoints a b S)
    (cones : List ((Fin (m + 1) → ℚ) × List (Mat (m + 1)))) (hvs : IsVertexList a b (cones.map (·.1)))
    (hT : ∀ c ∈ cones, Triangulation c.2 (normal a b c.1)) (tries : ℕ) (guesses : ℕ → Vec (m + 1)) (r : ℤ)
    (h : decomposeAndCount N' X .irrationalPrimal (irrVertex depth) maxDet fuel cones tries guesses = .ok r) :
    r = S.length := by
  obtain ⟨g, hg, hind⟩ := dual_indicators a b cones hvs hT S hS .irrationalPrimal (by decide)
  refine c42_restart N' hN X .irrationalPrimal _ (fun _ C z hC => ?_) maxDet h0 hmax fuel hfuel cones S hS.nodup g hg hind tries
    guesses r h
  obtain ⟨w, hw, hsame, -⟩ := c63_simplicial depth C hC (Nat.succ_pos m)
  have : irrVertex depth C = w := by unfold irrVertex; rw [hw]; rfl
  rw [this]
  exact hsame z

/-- **C65, total correctness in dual mode.** If the lattice reduction always finds short vectors, then the cones delivered do not depend on the
vectors tried, there are vectors not orthogonal to any of their rays, and the count ends with the number of lattice points of the
polytope in the first round in which such a vector is tried. -/
theorem c65_total_dual (N' : Ntl (m + 1)) (hN : N'.Ok) (hs : ShortVectors N') (X : Smith.Xgcd) (irr : Cone (m + 1) → Fin (m + 1) → ℚ)
    (maxDet : ℤ) (h1 : 1 ≤ maxDet) (hmax : maxDet ≤ Piped.intMax) (fuel : ℕ) (hfuel : maxDet < fuel)
    (a : Fin N → Vec (m + 1)) (b : Fin N → ℚ) (S : List (Vec (m + 1))) (hS : LatticePoints a b S)
    (cones : List ((Fin (m + 1) → ℚ) × List (Mat (m + 1)))) (hvs : IsVertexList a b (cones.map (·.1)))
    (hT : ∀ c ∈ cones, Triangulation c.2 (normal a b c.1)) :
    ∃ D : List (Cone (m + 1)), (∃ lam, GenericFor lam D) ∧ ∀ (t : ℕ) (guesses : ℕ → Vec (m + 1)),
      (∀ s < t, ¬ GenericFor (guesses s) D) → GenericFor (guesses t) D → ∀ tries, t < tries →
      decomposeAndCount N' X .dual irr maxDet fuel cones tries guesses = .ok (S.length : ℤ) := by
  have h0 : maxDet ≠ 0 := by omega
  obtain ⟨D, hD⟩ := delivered_dual N' hs irr maxDet h1 cones fun c hc => (hT c hc).simplicial
  obtain ⟨g, hg, hind⟩ := dual_indicators a b cones hvs hT S hS .dual (by decide)
  refine ⟨D, c42_generic_vector_exists N' hN .dual irr maxDet h0 hmax cones D hD, fun t guesses hbad hgood tries ht => ?_⟩
  exact c42_total N' hN X .dual irr (by intro h; cases h) maxDet h0 hmax fuel hfuel cones D hD S hS.nodup g hg hind t guesses hbad
    hgood tries ht

/-! ### Irrational all-primal variant -/

/-- **Specification.** What the driver knows about a vertex cone in this variant: its facets are non-zero normals describing the
tangent cone, its simplices triangulate the tangent cone without new rays. -/
structure TangentCone (a : Fin N → Vec n) (b : Fin N → ℚ) (C : VertexCone n) : Prop where
  facets_ne : C.facets ≠ []
  facet_ne : ∀ f ∈ C.facets, f ≠ 0
  facets : ∀ y, (∀ f ∈ C.facets, dot f y ≤ 0) ↔ y ∈ tangent a b C.vertex
  triangulated : Triangulation C.simplices (tangent a b C.vertex)
  rays : ∀ B ∈ C.simplices, ∀ i, B i ∈ C.rays

theorem inner_point (a : Fin N → Vec n) (b : Fin N → ℚ) (C : VertexCone n) (h : TangentCone a b C) :
    ∃ u : Fin n → ℚ, ∀ f ∈ C.facets, 0 < dotQ f u := by
  have h0 : (0 : Fin n → ℝ) ∈ tangent a b C.vertex := by
    intro i _
    unfold dot
    simp
  obtain ⟨B, hB, -⟩ := (h.triangulated.covers 0).1 h0
  have hdet := h.triangulated.simplicial B hB
  have hrow : ∀ f ∈ C.facets, ∀ i, ∑ k, f k * B i k ≤ 0 := by
    intro f hf i
    have hmem : (fun k => (B i k : ℝ)) ∈ cone B := by
      classical
      refine ⟨Pi.single i 1, fun j => ?_, ?_⟩
      · rw [Pi.single_apply]; split_ifs <;> norm_num
      · funext k
        unfold comb
        rw [Finset.sum_eq_single i (by intro j _ hj; simp [hj]) (by simp)]
        simp
    have := (h.facets _).2 ((h.triangulated.covers _).2 ⟨B, hB, hmem⟩) f hf
    have e : dot f (fun k => (B i k : ℝ)) = ((∑ k, f k * B i k : ℤ) : ℝ) := by
      unfold dot
      push_cast
      rfl
    rw [e] at this
    exact_mod_cast this
  refine ⟨fun k => -∑ i, (B i k : ℚ), fun f hf => ?_⟩
  have e : dotQ f (fun k => -∑ i, (B i k : ℚ)) = ((-∑ i, ∑ k, f k * B i k : ℤ) : ℚ) := by
    unfold dotQ
    push_cast
    rw [Finset.sum_comm, ← Finset.sum_neg_distrib]
    refine Finset.sum_congr rfl fun k _ => ?_
    rw [mul_neg, Finset.mul_sum]
  rw [e]
  have hlt : ∑ i, ∑ k, f k * B i k < 0 := by
    rcases (Finset.sum_nonpos fun i _ => hrow f hf i : ∑ i, ∑ k, f k * B i k ≤ 0).lt_or_eq with hlt | heq
    · exact hlt
    · exfalso
      have hz := (Finset.sum_eq_zero_iff_of_nonpos fun i _ => hrow f hf i).1 heq
      refine h.facet_ne f hf ?_
      have hv : Matrix.mulVec B f = 0 := by
        funext i
        have := hz i (Finset.mem_univ i)
        rw [Pi.zero_apply, ← this]
        show ∑ k, B i k * f k = _
        exact Finset.sum_congr rfl fun k _ => mul_comm _ _
      exact Matrix.eq_zero_of_mulVec_eq_zero hdet hv
  exact_mod_cast neg_pos.2 hlt

theorem inCone_iff (a : Fin N → Vec n) (b : Fin N → ℚ) (C : VertexCone n) (h : TangentCone a b C) (x : Fin n → ℚ) (z : Vec n) :
    rel z x ∈ tangent a b C.vertex ↔ InCone C.facets x z := by
  rw [← h.facets]
  refine forall₂_congr fun f _ => ?_
  have : dot f (rel z x) = (((∑ k, f k * z k : ℤ) : ℚ) : ℝ) - ((dotQ f x : ℚ) : ℝ) := by
    unfold dot rel dotQ
    push_cast
    rw [← Finset.sum_sub_distrib]
    exact Finset.sum_congr rfl fun k _ => by ring
  rw [this, sub_nonpos]
  exact Rat.cast_le

theorem allPrimal_one (a : Fin N → Vec n) (b : Fin N → ℚ) (lp : Solver n) (hlp : SolverOk lp) (depth : ℕ) (hd : 1 ≤ depth)
    (C : VertexCone n) (h : TangentCone a b C) :
    ∃ w, irrationalizeGeneral lp depth C.rays C.facets C.vertex = some w ∧
      ∀ z : Vec n, (C.simplices.map fun B => ind (cone B) (rel z w)).sum = ind (tangent a b C.vertex) (rel z C.vertex) := by
  obtain ⟨u, hu⟩ := inner_point a b C h
  obtain ⟨w, hw, hsame, -⟩ := c63_general lp hlp depth C.rays C.facets h.facets_ne h.facet_ne C.vertex u hu
  refine ⟨w, hw, fun z => ?_⟩
  rw [h.triangulated.count (rel z w) fun B hB => ?_]
  · have : rel z w ∈ tangent a b C.vertex ↔ rel z C.vertex ∈ tangent a b C.vertex := by
      rw [inCone_iff a b C h, inCone_iff a b C h, hsame z]
    unfold ind
    by_cases hc : rel z w ∈ tangent a b C.vertex
    · rw [if_pos hc, if_pos (this.1 hc)]
    · rw [if_neg hc, if_neg fun h => hc (this.2 h)]
  · have hdet := h.triangulated.simplicial B hB
    obtain ⟨F, d, hD, hpos, hdual, -⟩ := computeDetAndFacets_some ⟨1, w, B, 0, none, 0, 0⟩ rfl hdet
    exact rel_off_planes _ hdet F rfl hpos hdual
      (c64_triangulation_walls lp hlp depth hd C.rays C.facets h.facets_ne h.facet_ne C.vertex u hu w hw _ _ (h.rays B hB) rfl hD) z

theorem allPrimal_cones (a : Fin N → Vec n) (b : Fin N → ℚ) (lp : Solver n) (hlp : SolverOk lp) (depth : VertexCone n → ℕ)
    (hd : ∀ C, 1 ≤ depth C) (cones : List (VertexCone n)) (h : ∀ C ∈ cones, TangentCone a b C) :
    ∃ out, irrationalizeCones lp depth cones = some out ∧
      ∀ z : Vec n, (out.map fun c => (c.2.map fun B => ind (cone B) (rel z c.1)).sum).sum =
        (cones.map fun C => ind (tangent a b C.vertex) (rel z C.vertex)).sum := by
  induction cones with
  | nil => exact ⟨[], rfl, fun z => rfl⟩
  | cons C L ih =>
    obtain ⟨out, ho, hs⟩ := ih fun C' hC' => h C' (List.mem_cons_of_mem _ hC')
    obtain ⟨w, hw, h1⟩ := allPrimal_one a b lp hlp (depth C) (hd C) C (h C List.mem_cons_self)
    refine ⟨(w, C.simplices) :: out, by unfold irrationalizeCones; rw [hw]; simp only [ho], fun z => ?_⟩
    rw [List.map_cons, List.sum_cons, List.map_cons, List.sum_cons, h1 z, hs z]

/-- **C65, irrational all-primal decomposition.** All cones are moved before anything is decomposed.  The move succeeds (no assertion
fails), and every run on the moved cones that finishes returns the number of lattice points of the original polyhedron. -/
theorem c65_count_irrationalAllPrimal (N' : Ntl (m + 1)) (hN : N'.Ok) (X : Smith.Xgcd) (irr : Cone (m + 1) → Fin (m + 1) → ℚ)
    (lp : Solver (m + 1)) (hlp : SolverOk lp) (depth : VertexCone (m + 1) → ℕ) (hd : ∀ C, 1 ≤ depth C)
    (maxDet : ℤ) (h0 : maxDet ≠ 0) (hmax : maxDet ≤ Piped.intMax) (fuel : ℕ) (hfuel : maxDet < fuel)
    (a : Fin N → Vec (m + 1)) (b : Fin N → ℚ) (S : List (Vec (m + 1))) (hS : LatticePoints a b S)
    (cones : List (VertexCone (m + 1))) (hvs : IsVertexList a b (cones.map (·.vertex))) (hC : ∀ C ∈ cones, TangentCone a b C) :
    ∃ moved, irrationalizeCones lp depth cones = some moved ∧ ∀ (tries : ℕ) (guesses : ℕ → Vec (m + 1)) (r : ℤ),
      decomposeAndCount N' X .irrationalAllPrimal irr maxDet fuel moved tries guesses = .ok r → r = S.length := by
  obtain ⟨moved, hm, hs⟩ := allPrimal_cones a b lp hlp depth hd cones hC
  refine ⟨moved, hm, fun tries guesses r h => ?_⟩
  obtain ⟨g, hg, hv⟩ := vertex_sum a b _ hvs S hS
  refine c42_restart N' hN X .irrationalAllPrimal irr (by intro h; cases h) maxDet h0 hmax fuel hfuel moved S hS.nodup g hg
    (fun z => ?_) tries guesses r h
  rw [← hv z, List.map_map]
  exact congrArg _ (hs z)

end Verif.Brion
