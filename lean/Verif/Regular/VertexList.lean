import Verif.Regular.Count
import Verif.Brion.Ehrhart

/-!
# The hypotheses of C75 (and C65) can be met for every polytope

A polyhedron given by rational inequalities has finitely many vertices, all rational, and the tight inequalities at a vertex give the rays of its normal cone.
-/

namespace Verif.Regular

open Verif.Barvinok Verif.Barvinok.Spec Verif.Brion Verif.ExpSubst

variable {n m N : ℕ}

open scoped Classical in
/-- A vertex is rational. -/
theorem vertex_rational (a : Fin N → Vec n) (b : Fin N → ℚ) (x : Fin n → ℝ) (hx : x ∈ (Poly a fun i => (b i : ℝ)).extremePoints ℝ) :
    ∃ v : Fin n → ℚ, x = fun k => (v k : ℝ) := by
  set J : Finset (Fin N) := Finset.univ.filter fun i => dot (a i) x = (b i : ℝ) with hJ
  have hk : ∀ k, ∃ q : ℚ, x k = (q : ℝ) := by
    intro k
    let A : Fin N ⊕ Fin N → (Fin n → ℚ) →ₗ[ℚ] ℚ := fun s =>
      match s with
      | .inl i => funQ fun k => (a i k : ℚ)
      | .inr i => -(funQ fun k => (a i k : ℚ))
    obtain ⟨c, -, e⟩ := farkas (K := ℚ) (J.disjSum J) A (funQ (Pi.single k 1)) (by
      intro y hy
      have h0 : ∀ i, dot (a i) x = (b i : ℝ) → ∑ k, (a i k : ℚ) * y k = 0 := by
        intro i hi
        have hi' : i ∈ J := by simp [hJ, hi]
        have h1 : ∑ k, (a i k : ℚ) * y k ≤ 0 := hy (.inl i) (by simpa using hi')
        have h2 : -∑ k, (a i k : ℚ) * y k ≤ 0 := hy (.inr i) (by simpa using hi')
        linarith
      have hy0 := active_of_extreme a (fun i => (b i : ℝ)) x hx (fun k => (y k : ℝ)) fun i hi => by
        have := congrArg (fun q : ℚ => (q : ℝ)) (h0 i hi)
        push_cast at this
        exact this
      have : y = 0 := by
        funext k
        have := congrFun hy0 k
        have h : ((y k : ℚ) : ℝ) = 0 := this
        exact_mod_cast h
      rw [this, map_zero])
    refine ⟨∑ i ∈ J, (c (.inl i) - c (.inr i)) * b i, ?_⟩
    have hco : ∀ k', (Pi.single k 1 : Fin n → ℚ) k' = ∑ i ∈ J, (c (.inl i) - c (.inr i)) * (a i k' : ℚ) := by
      intro k'
      have h := LinearMap.congr_fun e (Pi.single k' 1)
      have h0 : ∀ y : Fin n → ℚ, funQ y (Pi.single k' 1) = y k' := by
        intro y
        show ∑ k, y k * (Pi.single k' 1 : Fin n → ℚ) k = y k'
        rw [Finset.sum_eq_single k' (fun b _ hb => by rw [Pi.single_eq_of_ne hb, mul_zero]) (fun h => absurd (Finset.mem_univ _) h), Pi.single_eq_same, mul_one]
      rw [h0, LinearMap.sum_apply, Finset.sum_disjSum] at h
      rw [h, ← Finset.sum_add_distrib]
      refine Finset.sum_congr rfl fun i _ => ?_
      show c (.inl i) * (funQ fun k => (a i k : ℚ)) (Pi.single k' 1) + c (.inr i) * -((funQ fun k => (a i k : ℚ)) (Pi.single k' 1)) = _
      rw [h0]
      ring
    have hval : x k = ∑ k', ((Pi.single k 1 : Fin n → ℚ) k' : ℝ) * x k' := by
      rw [Finset.sum_eq_single k (fun b _ hb => by rw [Pi.single_eq_of_ne hb]; simp) (fun h => absurd (Finset.mem_univ _) h), Pi.single_eq_same]
      simp
    rw [hval, Finset.sum_congr rfl fun k' _ => by rw [hco k']]
    push_cast
    rw [Finset.sum_congr rfl fun k' _ => Finset.sum_mul _ _ _, Finset.sum_comm]
    refine Finset.sum_congr rfl fun i hi => ?_
    have hb : dot (a i) x = (b i : ℝ) := (Finset.mem_filter.1 hi).2
    rw [← hb]
    unfold dot
    rw [Finset.mul_sum]
    exact Finset.sum_congr rfl fun k' _ => by ring
  choose v hv using hk
  exact ⟨v, funext hv⟩

open scoped Classical in
/-- Every polyhedron has a list of vertices. -/
theorem vertexList_exists (a : Fin N → Vec n) (b : Fin N → ℚ) : ∃ vs, IsVertexList a b vs := by
  have hfin : Set.Finite {v : Fin n → ℚ | (fun k => (v k : ℝ)) ∈ (Poly a fun i => (b i : ℝ)).extremePoints ℝ} := by
    refine Set.Finite.of_finite_image (f := fun v => (Finset.univ.filter fun i => dot (a i) (fun k => (v k : ℝ)) = (b i : ℝ) : Finset (Fin N)))
      (Set.toFinite _) ?_
    intro v hv w hw he
    have hd := active_of_extreme a (fun i => (b i : ℝ)) _ hv ((fun k => (v k : ℝ)) + (-1 : ℝ) • fun k => (w k : ℝ)) fun i hi => by
      have : i ∈ (Finset.univ.filter fun i => dot (a i) (fun k => (w k : ℝ)) = (b i : ℝ) : Finset (Fin N)) := by
        beta_reduce at he
        rw [← he]
        simp [hi]
      have hw' : dot (a i) (fun k => (w k : ℝ)) = (b i : ℝ) := (Finset.mem_filter.1 this).2
      rw [dot_move, hi, hw']
      ring
    funext k
    have := congrFun hd k
    have h : (v k : ℝ) + -1 * (w k : ℝ) = 0 := this
    have h2 : (v k : ℝ) = (w k : ℝ) := by linarith
    exact_mod_cast h2
  refine ⟨hfin.toFinset.toList, Finset.nodup_toList _, fun x => ⟨?_, fun hx => ?_⟩⟩
  · rintro ⟨v, hv, rfl⟩
    rw [Finset.mem_toList, Set.Finite.mem_toFinset] at hv
    exact hv
  · obtain ⟨v, rfl⟩ := vertex_rational a b x hx
    exact ⟨v, by rw [Finset.mem_toList, Set.Finite.mem_toFinset]; exact hx, rfl⟩

/-- The tight inequalities found by the program (C69) generate the normal cones. -/
theorem normalRays_tight (ineqs : List (ℤ × Vec n)) (vs : List (Fin n → ℚ)) :
    NormalRays (normals ineqs) (sides ineqs) (vs.map fun v => (v, computeTight ineqs v [])) := by
  intro c hc
  obtain ⟨v, -, rfl⟩ := List.mem_map.1 hc
  refine generated_coneOf (normals ineqs) _ _ fun r => ?_
  have := (c69_tight_tangent ineqs v).2
  exact (Set.ext_iff.1 this r)

/-- **C75, counting, from the inequalities.** The cones that the program triangulates are those at the vertices with the tight inequalities as rays; for
every list of inequalities that describes a bounded set, and a list of its vertices, a number returned by the program is the number of lattice points. -/
theorem c75_count_inequalities (N' : Ntl (m + 1)) (hN : N'.Ok) (X : Smith.Xgcd) (irr : Cone (m + 1) → Fin (m + 1) → ℚ)
    (maxDet : ℤ) (h0 : maxDet ≠ 0) (hmax : maxDet ≤ Piped.intMax) (fuel : ℕ) (hfuel : maxDet < fuel)
    (ineqs : List (ℤ × Vec (m + 1))) (vs : List (Fin (m + 1) → ℚ)) (hvs : IsVertexList (normals ineqs) (sides ineqs) vs)
    (S : List (Vec (m + 1))) (hS : S.Nodup) (hmem : ∀ z, z ∈ S ↔ ∀ q ∈ ineqs, 0 ≤ q.1 + ∑ k, q.2 k * z k)
    (dd : DD) (hdd : DDOk dd) (alg : RayAlg) (ha : RayAlgOk alg) (lindep : List (Vec (m + 1)) → List ℤ → Bool) (hl : LindepOk lindep)
    (P : TriParams (m + 1)) (hM : 1 ≤ P.maxHeight) (hp : P.prescribed = none) (g : ℕ → Rng) (hg : ∀ t, (g t).Ok) (tfuel tries : ℕ)
    (guesses : ℕ → Vec (m + 1)) (r : ℤ)
    (h : triangulateAndCount N' X .dual irr maxDet fuel (vs.map fun v => (v, computeTight ineqs v [])) tries
      (fun t => triangulateCone dd alg lindep P (g t) tfuel) guesses = .ok r) : r = S.length := by
  refine c75_count N' hN X irr maxDet h0 hmax fuel hfuel (normals ineqs) (sides ineqs) S ⟨hS, fun z => ?_⟩ _ ?_ (normalRays_tight ineqs vs) tries _
    (fun t => triangulateCone_ok dd hdd alg ha lindep hl P hM hp (g t) (hg t) tfuel) guesses r h
  · rw [hmem]
    constructor
    · intro hz i
      have := hz (ineqs.get i) (List.get_mem _ _)
      have hq : (0 : ℚ) ≤ (((ineqs.get i).1 + ∑ k, (ineqs.get i).2 k * z k : ℤ) : ℚ) := by exact_mod_cast this
      push_cast at hq
      show ∑ k, ((-(ineqs.get i).2 k : ℤ) : ℚ) * (z k : ℚ) ≤ ((ineqs.get i).1 : ℚ)
      have e : ∑ k, ((-(ineqs.get i).2 k : ℤ) : ℚ) * (z k : ℚ) = -∑ k, ((ineqs.get i).2 k : ℚ) * (z k : ℚ) := by
        rw [← Finset.sum_neg_distrib]
        exact Finset.sum_congr rfl fun k _ => by push_cast; ring
      rw [e]
      linarith
    · intro hz q hq
      obtain ⟨i, rfl⟩ := List.mem_iff_get.1 hq
      have h1 : ∑ k, ((-(ineqs.get i).2 k : ℤ) : ℚ) * (z k : ℚ) ≤ ((ineqs.get i).1 : ℚ) := hz i
      have e : ∑ k, ((-(ineqs.get i).2 k : ℤ) : ℚ) * (z k : ℚ) = -∑ k, ((ineqs.get i).2 k : ℚ) * (z k : ℚ) := by
        rw [← Finset.sum_neg_distrib]
        exact Finset.sum_congr rfl fun k _ => by push_cast; ring
      rw [e] at h1
      have : (0 : ℚ) ≤ (((ineqs.get i).1 + ∑ k, (ineqs.get i).2 k * z k : ℤ) : ℚ) := by push_cast; linarith
      exact_mod_cast this
  · have : (vs.map fun v => (v, computeTight ineqs v [])).map (·.1) = vs := by
      rw [List.map_map]
      conv_rhs => rw [← List.map_id vs]
      rfl
    rw [this]
    exact hvs

end Verif.Regular
