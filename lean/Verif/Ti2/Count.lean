import Verif.Ti2.Run

/-!
# Counting with vertex cones from 4ti2 (C83)
-/

namespace Verif.Ti2

open Verif.Barvinok Verif.Barvinok.Spec Verif.Brion Verif.Regular Verif.ExpSubst

variable {m : ℕ}

theorem lattice_iff {n : ℕ} (ineqs : List (ℤ × Vec n)) (z : Vec n) :
    (∀ i, ∑ k, (normals ineqs i k : ℚ) * (z k : ℚ) ≤ sides ineqs i) ↔ ∀ q ∈ ineqs, 0 ≤ q.1 + ∑ k, q.2 k * z k := by
  have key : ∀ i : Fin ineqs.length, ∑ k, (normals ineqs i k : ℚ) * (z k : ℚ) ≤ sides ineqs i ↔ 0 ≤ (ineqs.get i).1 + ∑ k, (ineqs.get i).2 k * z k := by
    intro i
    have e : ∑ k, ((-(ineqs.get i).2 k : ℤ) : ℚ) * (z k : ℚ) = -((∑ k, (ineqs.get i).2 k * z k : ℤ) : ℚ) := by
      push_cast
      rw [← Finset.sum_neg_distrib]
      exact Finset.sum_congr rfl fun k _ => by ring
    show ∑ k, ((-(ineqs.get i).2 k : ℤ) : ℚ) * (z k : ℚ) ≤ ((ineqs.get i).1 : ℚ) ↔ _
    rw [e]
    constructor
    · intro h
      have : (0 : ℚ) ≤ (((ineqs.get i).1 + ∑ k, (ineqs.get i).2 k * z k : ℤ) : ℚ) := by push_cast at h ⊢; linarith
      exact_mod_cast this
    · intro h
      have : (0 : ℚ) ≤ (((ineqs.get i).1 + ∑ k, (ineqs.get i).2 k * z k : ℤ) : ℚ) := by exact_mod_cast h
      push_cast at this ⊢
      linarith
  constructor
  · intro h q hq
    obtain ⟨i, rfl⟩ := List.get_of_mem hq
    exact (key i).1 (h i)
  · intro h i
    exact (key i).2 (h _ (List.get_mem _ _))

theorem tightFacets_id {n : ℕ} (ineqs : List (ℤ × Vec n)) (C : GCone n) (h : C.facets ≠ []) : tightFacets ineqs C = C := by
  unfold tightFacets computeTight
  rw [if_neg h]

/-- For a cone without known facets they become the outer normals of the inequalities that are equations at its vertex. -/
theorem tightFacets_compute {n : ℕ} (ineqs : List (ℤ × Vec n)) (C : GCone n) (h : C.facets = []) :
    {f | f ∈ (tightFacets ineqs C).facets} = normals ineqs '' active (normals ineqs) (sides ineqs) C.vertex ∧ (tightFacets ineqs C).vertex = C.vertex := by
  unfold tightFacets
  rw [h]
  exact ⟨(c69_tight_tangent ineqs C.vertex).2, rfl⟩

theorem dualizeCones_swap {n : ℕ} (alg : Rays) : ∀ (cones : List (GCone n)), (∀ C ∈ cones, C.facets ≠ []) → dualizeCones alg cones = .ok (cones.map GCone.swap) := by
  intro cones
  induction cones with
  | nil => intro _; rfl
  | cons C l ih =>
    intro h
    unfold dualizeCones
    rw [ih fun C' hC' => h C' (List.mem_cons_of_mem _ hC')]
    unfold dualizeCone
    rw [if_pos (h C List.mem_cons_self)]
    rfl

/-- A cone at a vertex has facets, in positive dimension. -/
theorem facets_ne_nil (alg : Rays) (ha : RaysOk alg) (ineqs : List (ℤ × Vec (m + 1))) (unbounded : Bool) (cones : List (GCone (m + 1)))
    (h : vertexCones alg ineqs = .ok (unbounded, cones)) : ∀ C ∈ cones, C.facets ≠ [] := by
  intro C hC h0
  obtain ⟨-, hv, hc⟩ := c83_cones alg ha ineqs unbounded cones h
  have hx := (hv _).1 ⟨C, hC, rfl⟩
  rw [polyhedron_eq] at hx
  have := spans_of_vertex (normals ineqs) (sides ineqs) C.vertex hx C.facets (hc C hC).2.1 (fun _ => 1) (by rw [h0]; simp)
  have h1 := congrFun this 0
  norm_num at h1

/-- What is triangulated and counted. -/
theorem countDual_eq (alg : Rays) (ha : RaysOk alg) (N : Ntl (m + 1)) (X : Smith.Xgcd) (irr : Cone (m + 1) → Fin (m + 1) → ℚ) (maxDet : ℤ) (fuel : ℕ)
    (ineqs : List (ℤ × Vec (m + 1))) (tries : ℕ) (tris : ℕ → List (Vec (m + 1)) → ℕ → Except Fail (List (List (Vec (m + 1))) × ℕ))
    (guesses : ℕ → Vec (m + 1)) (unbounded : Bool) (cones : List (GCone (m + 1))) (h : vertexCones alg ineqs = .ok (unbounded, cones)) :
    countDual alg N X irr maxDet fuel ineqs tries tris guesses = if unbounded then .unbounded else
      match triangulateAndCount N X .dual irr maxDet fuel (cones.map fun C => (C.vertex, C.facets)) tries tris guesses with
      | .error e => .failed e
      | .ok k => .number k := by
  have hne := facets_ne_nil alg ha ineqs unbounded cones h
  have h1 : (cones.map (tightFacets ineqs)).map (tightFacets ineqs) = cones := by
    have : cones.map (tightFacets ineqs) = cones := by
      rw [List.map_congr_left (g := id) fun C hC => tightFacets_id ineqs C (hne C hC), List.map_id]
    rw [this, this]
  unfold countDual
  rw [h]
  simp only [h1]
  rw [dualizeCones_swap alg cones hne]
  simp only [List.map_map]
  rfl

theorem vertexList_of {n : ℕ} (alg : Rays) (ha : RaysOk alg) (ineqs : List (ℤ × Vec n)) (unbounded : Bool) (cones : List (GCone n))
    (h : vertexCones alg ineqs = .ok (unbounded, cones)) :
    IsVertexList (normals ineqs) (sides ineqs) ((cones.map fun C => (C.vertex, C.facets)).map (·.1)) ∧
      NormalRays (normals ineqs) (sides ineqs) (cones.map fun C => (C.vertex, C.facets)) := by
  obtain ⟨hd, hv, hc⟩ := c83_cones alg ha ineqs unbounded cones h
  refine ⟨?_, ?_⟩
  · rw [List.map_map]
    refine ⟨hd, fun x => ?_⟩
    rw [← polyhedron_eq, ← hv]
    simp only [List.mem_map]
    constructor
    · rintro ⟨v, ⟨C, hC, rfl⟩, rfl⟩; exact ⟨C, hC, rfl⟩
    · rintro ⟨C, hC, rfl⟩; exact ⟨_, ⟨C, hC, rfl⟩, rfl⟩
  · intro c hc'
    obtain ⟨C, hC, rfl⟩ := List.mem_map.1 hc'
    exact (hc C hC).2.1

/-- **C83, counting.** A number reported is the number of integer points satisfying the inequalities. -/
theorem c83_count (alg : Rays) (ha : RaysOk alg) (N : Ntl (m + 1)) (hN : N.Ok) (X : Smith.Xgcd) (irr : Cone (m + 1) → Fin (m + 1) → ℚ)
    (maxDet : ℤ) (h0 : maxDet ≠ 0) (hmax : maxDet ≤ Piped.intMax) (fuel : ℕ) (hfuel : maxDet < fuel)
    (ineqs : List (ℤ × Vec (m + 1))) (S : List (Vec (m + 1))) (hS : S.Nodup) (hmem : ∀ z, z ∈ S ↔ ∀ q ∈ ineqs, 0 ≤ q.1 + ∑ k, q.2 k * z k)
    (dd : DD) (hdd : DDOk dd) (ralg : RayAlg) (hra : RayAlgOk ralg) (lindep : List (Vec (m + 1)) → List ℤ → Bool) (hl : LindepOk lindep)
    (P : TriParams (m + 1)) (hM : 1 ≤ P.maxHeight) (hp : P.prescribed = none) (g : ℕ → Rng) (hg : ∀ t, (g t).Ok) (tfuel tries : ℕ)
    (guesses : ℕ → Vec (m + 1)) (r : ℤ)
    (h : countDual alg N X irr maxDet fuel ineqs tries (fun t => triangulateCone dd ralg lindep P (g t) tfuel) guesses = .number r) : r = S.length := by
  cases hv : vertexCones alg ineqs with
  | error e => unfold countDual at h; rw [hv] at h; cases h
  | ok res =>
    obtain ⟨unbounded, cones⟩ := res
    rw [countDual_eq alg ha N X irr maxDet fuel ineqs tries _ guesses unbounded cones hv] at h
    cases unbounded with
    | true => cases h
    | false =>
      rw [if_neg (by simp)] at h
      obtain ⟨hvl, hnr⟩ := vertexList_of alg ha ineqs false cones hv
      cases ht : triangulateAndCount N X .dual irr maxDet fuel (cones.map fun C => (C.vertex, C.facets)) tries
          (fun t => triangulateCone dd ralg lindep P (g t) tfuel) guesses with
      | error e => rw [ht] at h; cases h
      | ok k =>
        rw [ht] at h
        obtain rfl := Report.number.inj h
        exact c75_count N hN X irr maxDet h0 hmax fuel hfuel (normals ineqs) (sides ineqs) S ⟨hS, fun z => by rw [hmem, lattice_iff]⟩ _ hvl hnr tries _
          (fun t => triangulateCone_ok dd hdd ralg hra lindep hl P hM hp (g t) (hg t) tfuel) guesses k ht

/-- **C83, reports of unboundedness.** For a non-empty polyhedron without lines, the program reports that it is unbounded exactly if it is. -/
theorem c83_report_partial (alg : Rays) (ha : RaysOk alg) (N : Ntl (m + 1)) (X : Smith.Xgcd) (irr : Cone (m + 1) → Fin (m + 1) → ℚ) (maxDet : ℤ) (fuel : ℕ)
    (ineqs : List (ℤ × Vec (m + 1))) (hnl : ∀ y : Fin (m + 1) → ℝ, (∀ q ∈ ineqs, dot q.2 y = 0) → y = 0)
    (hne : ({x : Fin (m + 1) → ℝ | ∀ q ∈ ineqs, 0 ≤ (q.1 : ℝ) + dot q.2 x}).Nonempty)
    (tries : ℕ) (tris : ℕ → List (Vec (m + 1)) → ℕ → Except Fail (List (List (Vec (m + 1))) × ℕ)) (guesses : ℕ → Vec (m + 1)) :
    countDual alg N X irr maxDet fuel ineqs tries tris guesses = .unbounded ↔
      ¬ Bornology.IsBounded {x : Fin (m + 1) → ℝ | ∀ q ∈ ineqs, 0 ≤ (q.1 : ℝ) + dot q.2 x} := by
  obtain ⟨⟨unbounded, cones⟩, hv⟩ := (c83_assert alg ha ineqs).2 hnl
  rw [countDual_eq alg ha N X irr maxDet fuel ineqs tries tris guesses unbounded cones hv]
  refine Iff.trans ?_ (c83_unbounded_partial alg ha ineqs unbounded cones hv hne)
  cases unbounded with
  | true => simp
  | false =>
    rw [if_neg (by simp)]
    cases triangulateAndCount N X .dual irr maxDet fuel (cones.map fun C => (C.vertex, C.facets)) tries tris guesses <;> simp

/-- **C83, an answer is found.** If there is no direction of recession, the program ends with the number as soon as a triangulation goes through and its
random vector is generic. -/
theorem c83_total (alg : Rays) (ha : RaysOk alg) (N : Ntl (m + 1)) (hN : N.Ok) (hsv : ShortVectors N) (X : Smith.Xgcd) (irr : Cone (m + 1) → Fin (m + 1) → ℚ)
    (maxDet : ℤ) (h1 : 1 ≤ maxDet) (hmax : maxDet ≤ Piped.intMax) (fuel : ℕ) (hfuel : maxDet < fuel)
    (ineqs : List (ℤ × Vec (m + 1))) (hb : ∀ y : Fin (m + 1) → ℝ, (∀ q ∈ ineqs, 0 ≤ dot q.2 y) → y = 0)
    (S : List (Vec (m + 1))) (hS : S.Nodup) (hmem : ∀ z, z ∈ S ↔ ∀ q ∈ ineqs, 0 ≤ q.1 + ∑ k, q.2 k * z k)
    (tris : ℕ → List (Vec (m + 1)) → ℕ → Except Fail (List (List (Vec (m + 1))) × ℕ)) (ht : ∀ t, TriangulationOk (tris t)) (T : ℕ)
    (htot : ∀ t ≤ T, ∀ L : List (Vec (m + 1)), Spans L → ∀ k, ∃ parts k', tris t L k = .ok (parts, k') ∧ ∀ p ∈ parts, p.length = m + 1) :
    ∃ D : ℕ → List (Cone (m + 1)), (∀ t ≤ T, ∃ lam, GenericFor lam (D t)) ∧ ∀ (guesses : ℕ → Vec (m + 1)), GenericFor (guesses T) (D T) →
      ∀ tries, T < tries → countDual alg N X irr maxDet fuel ineqs tries tris guesses = .number S.length := by
  have hnl : NoLine ineqs := fun y hy => hb y fun q hq => (hy q hq).ge
  obtain ⟨⟨unbounded, cones⟩, hv⟩ := (c83_assert alg ha ineqs).2 hnl
  have hf : unbounded = false := by
    by_contra h
    obtain ⟨y, hy, hq⟩ := (c83_flag alg ha ineqs unbounded cones hv).1 (by simpa using h)
    exact hy (hb y hq)
  subst hf
  obtain ⟨hvl, hnr⟩ := vertexList_of alg ha ineqs false cones hv
  obtain ⟨D, hD, h⟩ := c75_count_total N hN hsv X irr maxDet h1 hmax fuel hfuel (normals ineqs) (sides ineqs) S
    ⟨hS, fun z => by rw [hmem, lattice_iff]⟩ _ hvl hnr tris ht T (fun t hT c hc k => htot t hT c.2 (by
      refine spans_of_vertex (normals ineqs) (sides ineqs) c.1 ?_ c.2 (hnr c hc)
      exact (hvl.mem _).1 ⟨c.1, List.mem_map_of_mem hc, rfl⟩) k)
  refine ⟨D, hD, fun guesses hg tries hT => ?_⟩
  rw [countDual_eq alg ha N X irr maxDet fuel ineqs tries tris guesses false cones hv, if_neg (by simp), h guesses hg tries hT]

/-! ## Empty polyhedra -/

/-- `x ≥ 0`, `-1 - x ≥ 0`, `y ≥ 0`. -/
def emptyHalfStrip : List (ℤ × Vec 2) := [(0, ![1, 0]), (-1, ![-1, 0]), (0, ![0, 1])]

/-- **C83, violation.** No point satisfies these inequalities, and the program reports that the polyhedron is unbounded. -/
theorem c83_empty_violation (alg : Rays) (ha : RaysOk alg) (N : Ntl 2) (X : Smith.Xgcd) (irr : Cone 2 → Fin 2 → ℚ) (maxDet : ℤ) (fuel : ℕ) (tries : ℕ)
    (tris : ℕ → List (Vec 2) → ℕ → Except Fail (List (List (Vec 2)) × ℕ)) (guesses : ℕ → Vec 2) :
    (∀ x : Fin 2 → ℝ, ¬ ∀ q ∈ emptyHalfStrip, 0 ≤ (q.1 : ℝ) + dot q.2 x) ∧
      countDual alg N X irr maxDet fuel emptyHalfStrip tries tris guesses = .unbounded := by
  refine ⟨fun x h => ?_, ?_⟩
  · have h1 := h (0, ![1, 0]) (by simp [emptyHalfStrip])
    have h2 := h (-1, ![-1, 0]) (by simp [emptyHalfStrip])
    simp [dot] at h1 h2
    linarith
  · have hnl : NoLine emptyHalfStrip := by
      intro y hy
      have h1 := hy (0, ![1, 0]) (by simp [emptyHalfStrip])
      have h2 := hy (0, ![0, 1]) (by simp [emptyHalfStrip])
      simp [dot] at h1 h2
      funext k
      fin_cases k
      · exact h1
      · exact h2
    obtain ⟨⟨unbounded, cones⟩, hv⟩ := (c83_assert alg ha emptyHalfStrip).2 hnl
    have hu : unbounded = true := (c83_flag alg ha emptyHalfStrip unbounded cones hv).2 ⟨![0, 1], by
      intro h
      have := congrFun h 1
      simp at this, by
      intro q hq
      simp [emptyHalfStrip] at hq
      rcases hq with rfl | rfl | rfl <;> simp [dot]⟩
    rw [countDual_eq (m := 1) alg ha N X irr maxDet fuel emptyHalfStrip tries tris guesses unbounded cones hv, hu, if_pos rfl]

end Verif.Ti2
