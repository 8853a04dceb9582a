import Verif.Brion.Total
import Verif.Brion.Extreme
import Verif.ExpSubst.EhrhartTotal
import Mathlib.Algebra.Polynomial.Roots

/-!
# C69: the Ehrhart polynomial of an integral polytope is computed correctly, end to end
-/

namespace Verif.Brion

open Verif.Barvinok Verif.Barvinok.Spec Verif.ExpSubst Verif.Irrational

variable {n N m : ℕ}

/-! ### Specification -/

/-- **Specification.** The right-hand sides of the `M`-fold dilation. -/
def dilate (M : ℕ) (b : Fin N → ℚ) : Fin N → ℚ := fun i => M * b i

/-- **Specification.** The polynomial with the given coefficients counts the lattice points of every dilation by a positive integer. -/
def IsEhrhart (a : Fin N → Vec (m + 1)) (b : Fin N → ℚ) (coeffs : ℕ → ℚ) : Prop :=
  ∀ M : ℕ, 1 ≤ M → ∀ S, LatticePoints a (dilate M b) S → ∑ k ∈ Finset.range (m + 2), coeffs k * (M : ℚ) ^ k = S.length

/-- The specification determines the coefficients: if all dilations have finitely many lattice points, two counting polynomials
agree. -/
theorem isEhrhart_unique (a : Fin N → Vec (m + 1)) (b : Fin N → ℚ) (hfin : ∀ M : ℕ, 1 ≤ M → ∃ S, LatticePoints a (dilate M b) S)
    (c d : ℕ → ℚ) (hc : IsEhrhart a b c) (hd : IsEhrhart a b d) (k : ℕ) (hk : k < m + 2) : c k = d k := by
  let p : Polynomial ℚ := ∑ k ∈ Finset.range (m + 2), Polynomial.C (c k - d k) * Polynomial.X ^ k
  have hp : p = 0 := by
    by_contra h0
    have hsub : (fun M : ℕ => ((M + 1 : ℕ) : ℚ)) '' Set.univ ⊆ (p.roots.toFinset : Set ℚ) := by
      rintro x ⟨M, -, rfl⟩
      rw [Finset.mem_coe, Multiset.mem_toFinset, Polynomial.mem_roots h0]
      obtain ⟨S, hS⟩ := hfin (M + 1) (by omega)
      have h1 := hc (M + 1) (by omega) S hS
      have h2 := hd (M + 1) (by omega) S hS
      show p.eval _ = 0
      simp only [p, Polynomial.eval_finsetSum, Polynomial.eval_mul, Polynomial.eval_C, Polynomial.eval_pow, Polynomial.eval_X, sub_mul,
        Finset.sum_sub_distrib]
      rw [h1, h2, sub_self]
    have hinf : ((fun M : ℕ => ((M + 1 : ℕ) : ℚ)) '' Set.univ).Infinite := by
      refine Set.infinite_univ.image fun x _ y _ h => ?_
      have h' : (((x + 1 : ℕ)) : ℚ) = ((y + 1 : ℕ) : ℚ) := h
      have : x + 1 = y + 1 := by exact_mod_cast h'
      omega
    exact hinf ((Finset.finite_toSet _).subset hsub)
  have := congrArg (Polynomial.coeff · k) hp
  simp only [p, Polynomial.finsetSum_coeff, Polynomial.coeff_C_mul, Polynomial.coeff_X_pow, Polynomial.coeff_zero] at this
  rw [Finset.sum_eq_single k] at this
  · rw [if_pos rfl, mul_one] at this
    linarith
  · intro j _ hj; rw [if_neg (fun e => hj e.symm), mul_zero]
  · intro h; exact absurd (Finset.mem_range.2 hk) h

/-! ### Model of the translation to the origin -/

/-- The body of the loop of count.cpp:378–396: `ehrhart_vertex` becomes the vertex scaled to an integer vector; if the scale factor is not 1,
`pe_RationalPolytope` is thrown (`none`). -/
def ehrhartVertex (v : Fin n → ℚ) : Option (Vec n) := if vertexScale v ≠ 1 then none else some (vertexScaled v)

/-- The loop of count.cpp:378–396 for cones given with the simplices of their dual triangulation: the vertex becomes 0. -/
def toOrigin : List ((Fin n → ℚ) × List (Mat n)) → Option (List (EhrhartCone n))
  | [] => some []
  | c :: cs =>
    match ehrhartVertex c.1 with
    | none => none
    | some ev =>
      match toOrigin cs with
      | none => none
      | some out => some (⟨0, ev, c.2⟩ :: out)

/-- The same loop for the all-primal variant. -/
def toOriginPrimal : List (VertexCone n) → Option (List (VertexCone n × Vec n))
  | [] => some []
  | C :: cs =>
    match ehrhartVertex C.vertex with
    | none => none
    | some ev =>
      match toOriginPrimal cs with
      | none => none
      | some out => some (({ C with vertex := 0 }, ev) :: out)

/-- `irrationalizeCones` (Irrational.cpp 343–350, called in count.cpp:458) on the translated cones: only `vertex->vertex` is replaced
(Irrational.cpp:338–339), `ehrhart_vertex` stays. -/
def irrationalizeE (lp : Solver n) (depth : VertexCone n → ℕ) : List (VertexCone n × Vec n) → Option (List (EhrhartCone n))
  | [] => some []
  | C :: rest =>
    match irrationalizeGeneral lp (depth C.1) C.1.rays C.1.facets C.1.vertex with
    | none => none
    | some w =>
      match irrationalizeE lp depth rest with
      | none => none
      | some out => some (⟨w, C.2, C.1.simplices⟩ :: out)

/-! ### Integrality -/

theorem vertexScale_eq_one (v : Fin n → ℚ) : vertexScale v = 1 ↔ ∀ k, (v k).den = 1 := by
  unfold vertexScale
  have : ((Finset.univ.lcm fun k => (v k).den : ℕ) : ℤ) = 1 ↔ (Finset.univ.lcm fun k => (v k).den) = 1 := by
    exact_mod_cast Iff.rfl
  rw [this]
  constructor
  · intro h k
    have := Finset.dvd_lcm (f := fun k => (v k).den) (Finset.mem_univ k)
    rw [h] at this
    exact Nat.dvd_one.1 this
  · intro h
    rw [← Nat.dvd_one]
    exact Finset.lcm_dvd fun k _ => by rw [h k]

theorem ehrhartVertex_some (v : Fin n → ℚ) (ev : Vec n) (h : ehrhartVertex v = some ev) : ∀ k, (ev k : ℚ) = v k := by
  unfold ehrhartVertex at h
  split_ifs at h with h1
  · rw [not_not] at h1
    cases h
    intro k
    have hd := (vertexScale_eq_one v).1 h1 k
    unfold vertexScaled
    rw [h1, hd]
    simp only [Nat.cast_one, EuclideanDomain.div_one, mul_one]
    exact Rat.coe_int_num_of_den_eq_one hd

theorem ehrhartVertex_none (v : Fin n → ℚ) : ehrhartVertex v = none ↔ ¬ ∃ z : Vec n, ∀ k, (z k : ℚ) = v k := by
  unfold ehrhartVertex
  constructor
  · intro h
    split_ifs at h with h1
    rintro ⟨z, hz⟩
    apply h1
    rw [vertexScale_eq_one]
    intro k
    rw [← hz k]
    exact Rat.den_intCast _
  · intro h
    rw [if_pos]
    intro h1
    exact h ⟨_, ehrhartVertex_some v (vertexScaled v) (by unfold ehrhartVertex; rw [if_neg (by simpa using h1)])⟩

/-- **C69, rational polytopes are rejected, integral ones are not.** -/
theorem c69_rejects (cones : List ((Fin n → ℚ) × List (Mat n))) :
    toOrigin cones = none ↔ ∃ c ∈ cones, ¬ ∃ z : Vec n, ∀ k, (z k : ℚ) = c.1 k := by
  induction cones with
  | nil => simp [toOrigin]
  | cons c cs ih =>
    unfold toOrigin
    rw [List.exists_mem_cons_iff, ← ih, ← ehrhartVertex_none]
    cases h : ehrhartVertex c.1 with
    | none => simp
    | some ev => cases h2 : toOrigin cs <;> simp

theorem c69_rejects_primal (cones : List (VertexCone n)) :
    toOriginPrimal cones = none ↔ ∃ c ∈ cones, ¬ ∃ z : Vec n, ∀ k, (z k : ℚ) = c.vertex k := by
  induction cones with
  | nil => simp [toOriginPrimal]
  | cons c cs ih =>
    unfold toOriginPrimal
    rw [List.exists_mem_cons_iff, ← ih, ← ehrhartVertex_none]
    cases h : ehrhartVertex c.vertex with
    | none => simp
    | some ev => cases h2 : toOriginPrimal cs <;> simp

/-! ### Dilations -/

theorem active_dilate (a : Fin N → Vec n) (b : Fin N → ℚ) (M : ℕ) (hM : 1 ≤ M) (v : Fin n → ℚ) :
    active a (dilate M b) (fun k => M * v k) = active a b v := by
  ext i
  show ∑ k, (a i k : ℚ) * (M * v k) = M * b i ↔ ∑ k, (a i k : ℚ) * v k = b i
  have : ∑ k, (a i k : ℚ) * (M * v k) = M * ∑ k, (a i k : ℚ) * v k := by
    rw [Finset.mul_sum]
    exact Finset.sum_congr rfl fun k _ => by ring
  rw [this]
  have hM0 : (M : ℚ) ≠ 0 := by positivity
  exact mul_right_inj' hM0

theorem dilate_vertices (a : Fin N → Vec n) (b : Fin N → ℚ) (M : ℕ) (hM : 1 ≤ M) (vs : List (Fin n → ℚ)) (h : IsVertexList a b vs) :
    IsVertexList a (dilate M b) (vs.map fun v k => M * v k) := by
  have hM0 : (M : ℚ) ≠ 0 := by positivity
  have hMr : (0 : ℝ) < M := by positivity
  refine ⟨(List.nodup_map_iff fun v w e => ?_).2 h.nodup, fun x => ?_⟩
  · funext k
    exact mul_left_cancel₀ hM0 (congrFun e k)
  have key : x ∈ (Poly a fun i => ((dilate M b i : ℚ) : ℝ)).extremePoints ℝ ↔
      (fun k => (M : ℝ)⁻¹ * x k) ∈ (Poly a fun i => (b i : ℝ)).extremePoints ℝ := by
    have hd : ∀ i, dot (a i) (fun k => (M : ℝ)⁻¹ * x k) = (M : ℝ)⁻¹ * dot (a i) x := fun i => dot_smul' (a i) _ x
    have hb : ∀ i, ((dilate M b i : ℚ) : ℝ) = M * (b i : ℝ) := by
      intro i; unfold dilate; push_cast; rfl
    rw [extreme_iff, extreme_iff]
    have h1 : ∀ i, dot (a i) x = ((dilate M b i : ℚ) : ℝ) ↔ dot (a i) (fun k => (M : ℝ)⁻¹ * x k) = (b i : ℝ) := by
      intro i
      rw [hd, hb, inv_mul_eq_iff_eq_mul₀ hMr.ne']
    have h2 : x ∈ (Poly a fun i => ((dilate M b i : ℚ) : ℝ)) ↔ (fun k => (M : ℝ)⁻¹ * x k) ∈ Poly a fun i => (b i : ℝ) := by
      refine forall_congr' fun i => ?_
      show dot (a i) x ≤ ((dilate M b i : ℚ) : ℝ) ↔ dot (a i) (fun k => (M : ℝ)⁻¹ * x k) ≤ (b i : ℝ)
      rw [hd, hb, inv_mul_le_iff₀ hMr]
    rw [h2]
    simp only [h1]
  rw [key, ← h.mem]
  constructor
  · rintro ⟨v, hv, rfl⟩
    obtain ⟨w, hw, rfl⟩ := List.mem_map.1 hv
    refine ⟨w, hw, ?_⟩
    funext k
    push_cast
    rw [inv_mul_cancel_left₀ hMr.ne']
  · rintro ⟨v, hv, e⟩
    refine ⟨_, List.mem_map_of_mem hv, ?_⟩
    funext k
    have : (M : ℝ)⁻¹ * x k = v k := congrFun e k
    push_cast
    rw [← this, mul_inv_cancel_left₀ hMr.ne']

/-! ### Dual and irrational primal variants -/

theorem toOrigin_sum (v : Variant) (M : ℕ) (cones : List ((Fin (m + 1) → ℚ) × List (Mat (m + 1)))) :
    ∀ (out : List (EhrhartCone (m + 1))), toOrigin cones = some out → ∀ z,
    (out.map fun c => (c.simplices.map fun B => inputInd v (fun k => c.vertex k + ((M : ℤ) : ℚ) * c.ehrhart k) B z).sum).sum =
      (cones.map fun c => (c.2.map fun B => inputInd v (fun k => M * c.1 k) B z).sum).sum := by
  induction cones with
  | nil => intro out h z; cases h; rfl
  | cons c cs ih =>
    intro out h z
    unfold toOrigin at h
    split at h
    · cases h
    · rename_i ev he
      split at h
      · cases h
      · rename_i out' ho
        cases h
        rw [List.map_cons, List.sum_cons, List.map_cons, List.sum_cons, ih out' ho z]
        have : (fun k => (0 : Fin (m + 1) → ℚ) k + ((M : ℤ) : ℚ) * (ev k : ℚ)) = fun k => M * c.1 k := by
          funext k
          rw [ehrhartVertex_some _ _ he k, Pi.zero_apply, zero_add, Int.cast_natCast]
        simp only [this]

theorem ehrhart_indicators (a : Fin N → Vec (m + 1)) (b : Fin N → ℚ) (cones : List ((Fin (m + 1) → ℚ) × List (Mat (m + 1))))
    (hvs : IsVertexList a b (cones.map (·.1))) (hT : ∀ c ∈ cones, Triangulation c.2 (normal a b c.1)) (M : ℕ) (hM : 1 ≤ M)
    (S : List (Vec (m + 1))) (hS : LatticePoints a (dilate M b) S) (v : Variant) (hv : v ≠ .irrationalAllPrimal)
    (out : List (EhrhartCone (m + 1))) (ho : toOrigin cones = some out) :
    ∃ g ∈ negligible (m + 1), ∀ z, (((out.map fun c => (c.simplices.map fun B =>
      inputInd v (fun k => c.vertex k + ((M : ℤ) : ℚ) * c.ehrhart k) B z).sum).sum : ℤ) : ℚ) = (if z ∈ S then 1 else 0) + g z := by
  obtain ⟨g, hg, h⟩ := dual_indicators a (dilate M b) (cones.map fun c => (fun k => M * c.1 k, c.2))
    (by have := dilate_vertices a b M hM _ hvs; rw [List.map_map] at this ⊢; exact this)
    (by
      intro c hc
      obtain ⟨c', hc', rfl⟩ := List.mem_map.1 hc
      show Triangulation c'.2 (coneOf a (active a (dilate M b) fun k => M * c'.1 k))
      rw [active_dilate a b M hM]
      exact hT c' hc') S hS v hv
  refine ⟨g, hg, fun z => ?_⟩
  rw [← h z, toOrigin_sum v M cones out ho z, List.map_map]
  rfl

/-- **C69, dual decomposition.** For every integral polytope `{x | aᵢ · x ≤ bᵢ}`: if the computation of the Ehrhart polynomial ends with coefficients,
then their polynomial counts the lattice points of every dilation by a positive integer, whatever vectors were tried. -/
theorem c69_dual (N' : Ntl (m + 1)) (hN : N'.Ok) (X : Smith.Xgcd) (irr : Cone (m + 1) → Fin (m + 1) → ℚ)
    (maxDet : ℤ) (h0 : maxDet ≠ 0) (hmax : maxDet ≤ Piped.intMax) (fuel : ℕ) (hfuel : maxDet < fuel)
    (a : Fin N → Vec (m + 1)) (b : Fin N → ℚ)
    (cones : List ((Fin (m + 1) → ℚ) × List (Mat (m + 1)))) (hvs : IsVertexList a b (cones.map (·.1)))
    (hT : ∀ c ∈ cones, Triangulation c.2 (normal a b c.1)) (moved : List (EhrhartCone (m + 1))) (hm : toOrigin cones = some moved)
    (tries : ℕ) (guesses : ℕ → Vec (m + 1)) (coeffs : ℕ → ℚ)
    (h : decomposeAndEhrhart N' X .dual irr maxDet fuel moved tries guesses = .ok coeffs) : IsEhrhart a b coeffs := by
  intro M hM S hS
  obtain ⟨g, hg, hind⟩ := ehrhart_indicators a b cones hvs hT M hM S hS .dual (by decide) moved hm
  exact c69_restart N' hN X .dual irr (by intro h; cases h) maxDet h0 hmax fuel hfuel moved tries guesses coeffs h M S hS.nodup g hg hind

/-- **C69, irrational primal decomposition.** -/
theorem c69_irrationalPrimal (N' : Ntl (m + 1)) (hN : N'.Ok) (X : Smith.Xgcd) (depth : Cone (m + 1) → ℕ)
    (maxDet : ℤ) (h0 : maxDet ≠ 0) (hmax : maxDet ≤ Piped.intMax) (fuel : ℕ) (hfuel : maxDet < fuel)
    (a : Fin N → Vec (m + 1)) (b : Fin N → ℚ)
    (cones : List ((Fin (m + 1) → ℚ) × List (Mat (m + 1)))) (hvs : IsVertexList a b (cones.map (·.1)))
    (hT : ∀ c ∈ cones, Triangulation c.2 (normal a b c.1)) (moved : List (EhrhartCone (m + 1))) (hm : toOrigin cones = some moved)
    (tries : ℕ) (guesses : ℕ → Vec (m + 1)) (coeffs : ℕ → ℚ)
    (h : decomposeAndEhrhart N' X .irrationalPrimal (irrVertex depth) maxDet fuel moved tries guesses = .ok coeffs) :
    IsEhrhart a b coeffs := by
  intro M hM S hS
  obtain ⟨g, hg, hind⟩ := ehrhart_indicators a b cones hvs hT M hM S hS .irrationalPrimal (by decide) moved hm
  refine c69_restart N' hN X .irrationalPrimal _ (fun _ C z hC => ?_) maxDet h0 hmax fuel hfuel moved tries guesses coeffs h M S hS.nodup
    g hg hind
  obtain ⟨w, hw, hsame, -⟩ := c63_simplicial depth C hC (Nat.succ_pos m)
  have : irrVertex depth C = w := by unfold irrVertex; rw [hw]; rfl
  rw [this]
  exact hsame z

/-! ### Irrational all-primal variant -/

/-- The tangent cone moved to the origin, seen as the tangent cone of a moved polyhedron. -/
theorem tangentCone_origin (a : Fin N → Vec n) (b : Fin N → ℚ) (C : VertexCone n) (h : TangentCone a b C) :
    TangentCone a (fun i => b i - ∑ k, (a i k : ℚ) * C.vertex k) { C with vertex := 0 } ∧
    tangent a (fun i => b i - ∑ k, (a i k : ℚ) * C.vertex k) 0 = tangent a b C.vertex := by
  have hact : active a (fun i => b i - ∑ k, (a i k : ℚ) * C.vertex k) 0 = active a b C.vertex := by
    ext i
    show ∑ k, (a i k : ℚ) * (0 : Fin n → ℚ) k = b i - ∑ k, (a i k : ℚ) * C.vertex k ↔ ∑ k, (a i k : ℚ) * C.vertex k = b i
    simp only [Pi.zero_apply, mul_zero, Finset.sum_const_zero]
    constructor
    · intro h; linarith
    · intro h; linarith
  have ht : tangent a (fun i => b i - ∑ k, (a i k : ℚ) * C.vertex k) 0 = tangent a b C.vertex := by
    unfold tangent
    rw [hact]
  exact ⟨⟨h.facets_ne, h.facet_ne, fun y => by rw [ht]; exact h.facets y, by rw [ht]; exact h.triangulated, h.rays⟩, ht⟩

theorem allPrimal_sum (a : Fin N → Vec n) (b : Fin N → ℚ) (lp : Solver n) (hlp : SolverOk lp) (depth : VertexCone n → ℕ)
    (hd : ∀ C, 1 ≤ depth C) (cones : List (VertexCone n)) (h : ∀ C ∈ cones, TangentCone a b C) :
    ∀ orig, toOriginPrimal cones = some orig → ∃ out, irrationalizeE lp depth orig = some out ∧
      ∀ (M : ℕ) (z : Vec n), (out.map fun c => (c.simplices.map fun B =>
        ind (cone B) (rel z fun k => c.vertex k + ((M : ℤ) : ℚ) * c.ehrhart k)).sum).sum =
        (cones.map fun C => ind (tangent a b C.vertex) (rel z fun k => M * C.vertex k)).sum := by
  induction cones with
  | nil => intro orig ho; cases ho; exact ⟨[], rfl, fun M z => rfl⟩
  | cons C L ih =>
    intro orig ho
    unfold toOriginPrimal at ho
    split at ho
    · cases ho
    · rename_i ev he
      split at ho
      · cases ho
      · rename_i orig' ho'
        cases ho
        obtain ⟨out, hout, hs⟩ := ih (fun C' hC' => h C' (List.mem_cons_of_mem _ hC')) orig' ho'
        obtain ⟨hC0, ht⟩ := tangentCone_origin a b C (h C List.mem_cons_self)
        obtain ⟨w, hw, h1⟩ := allPrimal_one a _ lp hlp (depth { C with vertex := 0 }) (hd _) { C with vertex := 0 } hC0
        refine ⟨⟨w, ev, C.simplices⟩ :: out, ?_, fun M z => ?_⟩
        · unfold irrationalizeE
          simp only [hout]
          rw [hw]
        · rw [List.map_cons, List.sum_cons, List.map_cons, List.sum_cons, hs M z]
          simp only [rel_shift]
          have := h1 (z - (M : ℤ) • ev)
          simp only at this
          rw [this, ht, ← rel_shift]
          congr 3
          funext k
          rw [ehrhartVertex_some _ _ he k, Pi.zero_apply, zero_add, Int.cast_natCast]

theorem allPrimal_indicators (a : Fin N → Vec (m + 1)) (b : Fin N → ℚ) (cones : List (VertexCone (m + 1)))
    (hvs : IsVertexList a b (cones.map (·.vertex))) (M : ℕ) (hM : 1 ≤ M) (S : List (Vec (m + 1)))
    (hS : LatticePoints a (dilate M b) S) : ∃ g ∈ negligible (m + 1), ∀ z : Vec (m + 1),
      (((cones.map fun C => ind (tangent a b C.vertex) (rel z fun k => M * C.vertex k)).sum : ℤ) : ℚ) =
        (if z ∈ S then 1 else 0) + g z := by
  obtain ⟨g, hg, h⟩ := vertex_sum a (dilate M b) _ (dilate_vertices a b M hM _ hvs) S hS
  refine ⟨g, hg, fun z => ?_⟩
  rw [← h z, List.map_map, List.map_map]
  congr 3
  funext C
  show _ = ind (tangent a (dilate M b) fun k => M * C.vertex k) _
  unfold tangent
  rw [active_dilate a b M hM]

/-- **C69, irrational all-primal decomposition.** The irrationalization of the cones moved to the origin succeeds, and the coefficients every finishing
run returns are those of the counting polynomial of the original polytope. -/
theorem c69_irrationalAllPrimal (N' : Ntl (m + 1)) (hN : N'.Ok) (X : Smith.Xgcd) (irr : Cone (m + 1) → Fin (m + 1) → ℚ)
    (lp : Solver (m + 1)) (hlp : SolverOk lp) (depth : VertexCone (m + 1) → ℕ) (hd : ∀ C, 1 ≤ depth C)
    (maxDet : ℤ) (h0 : maxDet ≠ 0) (hmax : maxDet ≤ Piped.intMax) (fuel : ℕ) (hfuel : maxDet < fuel)
    (a : Fin N → Vec (m + 1)) (b : Fin N → ℚ)
    (cones : List (VertexCone (m + 1))) (hvs : IsVertexList a b (cones.map (·.vertex))) (hC : ∀ C ∈ cones, TangentCone a b C)
    (orig : List (VertexCone (m + 1) × Vec (m + 1))) (ho : toOriginPrimal cones = some orig) :
    ∃ moved, irrationalizeE lp depth orig = some moved ∧ ∀ (tries : ℕ) (guesses : ℕ → Vec (m + 1)) (coeffs : ℕ → ℚ),
      decomposeAndEhrhart N' X .irrationalAllPrimal irr maxDet fuel moved tries guesses = .ok coeffs → IsEhrhart a b coeffs := by
  obtain ⟨moved, hm, hs⟩ := allPrimal_sum a b lp hlp depth hd cones hC orig ho
  refine ⟨moved, hm, fun tries guesses coeffs h M hM S hS => ?_⟩
  obtain ⟨g, hg, hv⟩ := allPrimal_indicators a b cones hvs M hM S hS
  refine c69_restart N' hN X .irrationalAllPrimal irr (by intro h; cases h) maxDet h0 hmax fuel hfuel moved tries guesses coeffs h M S
    hS.nodup g hg fun z => ?_
  rw [← hv z]
  exact congrArg _ (hs M z)

/-! ### Total correctness -/

theorem toOrigin_spec : ∀ (cones : List ((Fin n → ℚ) × List (Mat n))) (out : List (EhrhartCone n)), toOrigin cones = some out →
    ∀ c ∈ out, ∃ c' ∈ cones, c.simplices = c'.2 := by
  intro cones
  induction cones with
  | nil => intro out h; cases h; simp
  | cons c cs ih =>
    intro out h
    unfold toOrigin at h
    split at h
    · cases h
    · split at h
      · cases h
      · rename_i out' ho
        cases h
        intro d hd
        rcases List.mem_cons.1 hd with rfl | hd
        · exact ⟨c, List.mem_cons_self, rfl⟩
        · obtain ⟨c', hc', e⟩ := ih out' ho d hd
          exact ⟨c', List.mem_cons_of_mem _ hc', e⟩

/-- Every integral polytope is accepted. -/
theorem toOrigin_some (cones : List ((Fin n → ℚ) × List (Mat n))) (hint : ∀ c ∈ cones, ∃ z : Vec n, ∀ k, (z k : ℚ) = c.1 k) :
    ∃ moved, toOrigin cones = some moved := by
  cases h : toOrigin cones with
  | some out => exact ⟨out, rfl⟩
  | none =>
    obtain ⟨c, hc, hn⟩ := (c69_rejects cones).1 h
    exact absurd (hint c hc) hn

/-- **C69, total correctness in dual mode.** For every integral polytope, if the lattice reduction always finds short vectors (it does in dimension at most
four, `shortVectors_dim_le_four`): the polytope is accepted, suitable vectors exist, and in the first round in which one is tried the computation
ends with the coefficients of the counting polynomial. -/
theorem c69_total_dual (N' : Ntl (m + 1)) (hN : N'.Ok) (hs : ShortVectors N') (X : Smith.Xgcd) (irr : Cone (m + 1) → Fin (m + 1) → ℚ)
    (maxDet : ℤ) (h1 : 1 ≤ maxDet) (hmax : maxDet ≤ Piped.intMax) (fuel : ℕ) (hfuel : maxDet < fuel)
    (a : Fin N → Vec (m + 1)) (b : Fin N → ℚ)
    (cones : List ((Fin (m + 1) → ℚ) × List (Mat (m + 1)))) (hvs : IsVertexList a b (cones.map (·.1)))
    (hint : ∀ c ∈ cones, ∃ z : Vec (m + 1), ∀ k, (z k : ℚ) = c.1 k) (hT : ∀ c ∈ cones, Triangulation c.2 (normal a b c.1)) :
    ∃ moved, toOrigin cones = some moved ∧ ∃ D, (∃ lam, GenericForE lam D) ∧ ∀ (t : ℕ) (guesses : ℕ → Vec (m + 1)),
      (∀ s < t, ¬ GenericForE (guesses s) D) → GenericForE (guesses t) D → ∀ tries, t < tries →
      ∃ coeffs, decomposeAndEhrhart N' X .dual irr maxDet fuel moved tries guesses = .ok coeffs ∧ IsEhrhart a b coeffs := by
  have h0 : maxDet ≠ 0 := by omega
  obtain ⟨moved, hm⟩ := toOrigin_some cones hint
  obtain ⟨D, hD⟩ := deliveredE_of_single N' .dual irr maxDet moved fun c hc B hB out md => by
    obtain ⟨c', hc', e⟩ := toOrigin_spec cones moved hm c hc
    rw [e] at hB
    have hB := (hT c' hc').simplicial B hB
    unfold barvinokSingle
    obtain ⟨⟨D0, hd0, hwf, -⟩, -⟩ := Barvinok.start_wf B hB c.vertex
    rw [if_neg hB]
    simp only [hd0]
    exact dfs_total N' hs maxDet h1 _ D0 (Nat.lt_succ_self _) hwf _ _ _
  refine ⟨moved, hm, D, c69_generic_exists N' hN .dual irr maxDet h0 hmax moved D hD, fun t guesses hbad hgood tries ht => ?_⟩
  obtain ⟨c, hc⟩ := c69_ends N' hN X .dual irr maxDet h0 hmax fuel hfuel moved D hD t guesses hbad hgood tries ht
  exact ⟨c, hc, c69_dual N' hN X irr maxDet h0 hmax fuel hfuel a b cones hvs hT moved hm tries guesses c hc⟩

/-- **C69, total correctness of the irrational primal variant,** with reduced bases that start with a shortest vector. -/
theorem c69_total_irrationalPrimal (N' : Ntl (m + 1)) (hN : N'.Ok) (hR : N'.ShortestRow) (X : Smith.Xgcd) (depth : Cone (m + 1) → ℕ)
    (hd : ∀ C, Wf C → EstimateOk depth C) (maxDet : ℤ) (h1 : 1 ≤ maxDet) (hmax : maxDet ≤ Piped.intMax) (fuel : ℕ) (hfuel : maxDet < fuel)
    (a : Fin N → Vec (m + 1)) (b : Fin N → ℚ)
    (cones : List ((Fin (m + 1) → ℚ) × List (Mat (m + 1)))) (hvs : IsVertexList a b (cones.map (·.1)))
    (hint : ∀ c ∈ cones, ∃ z : Vec (m + 1), ∀ k, (z k : ℚ) = c.1 k) (hT : ∀ c ∈ cones, Triangulation c.2 (normal a b c.1)) :
    ∃ moved, toOrigin cones = some moved ∧ ∃ D, (∃ lam, GenericForE lam D) ∧ ∀ (t : ℕ) (guesses : ℕ → Vec (m + 1)),
      (∀ s < t, ¬ GenericForE (guesses s) D) → GenericForE (guesses t) D → ∀ tries, t < tries →
      ∃ coeffs, decomposeAndEhrhart N' X .irrationalPrimal (irrVertex depth) maxDet fuel moved tries guesses = .ok coeffs ∧
        IsEhrhart a b coeffs := by
  have h0 : maxDet ≠ 0 := by omega
  obtain ⟨moved, hm⟩ := toOrigin_some cones hint
  obtain ⟨D, hD⟩ := deliveredE_of_single N' .irrationalPrimal (irrVertex depth) maxDet moved fun c hc B hB out md => by
    obtain ⟨c', hc', e⟩ := toOrigin_spec cones moved hm c hc
    rw [e] at hB
    exact single_irrationalPrimal N' hN hR depth hd maxDet h1 B ((hT c' hc').simplicial B hB) c.vertex out md
  refine ⟨moved, hm, D, c69_generic_exists N' hN .irrationalPrimal _ maxDet h0 hmax moved D hD, fun t guesses hbad hgood tries ht => ?_⟩
  obtain ⟨c, hc⟩ := c69_ends N' hN X .irrationalPrimal _ maxDet h0 hmax fuel hfuel moved D hD t guesses hbad hgood tries ht
  exact ⟨c, hc, c69_irrationalPrimal N' hN X depth maxDet h0 hmax fuel hfuel a b cones hvs hT moved hm tries guesses c hc⟩

theorem movedE_spec (lp : Solver n) (depth : VertexCone n → ℕ) :
    ∀ (cones : List (VertexCone n)) (orig : List (VertexCone n × Vec n)), toOriginPrimal cones = some orig →
      ∀ (out : List (EhrhartCone n)), irrationalizeE lp depth orig = some out → ∀ c ∈ out, ∃ C ∈ cones, c.simplices = C.simplices ∧
        irrationalizeGeneral lp (depth { C with vertex := 0 }) C.rays C.facets 0 = some c.vertex := by
  intro cones
  induction cones with
  | nil => intro orig h; cases h; intro out h; cases h; simp
  | cons C L ih =>
    intro orig ho
    unfold toOriginPrimal at ho
    split at ho
    · cases ho
    · split at ho
      · cases ho
      · rename_i orig' ho'
        cases ho
        intro out h
        unfold irrationalizeE at h
        split at h
        · cases h
        · rename_i w hw
          split at h
          · cases h
          · rename_i out' hout
            cases h
            intro c hc
            rcases List.mem_cons.1 hc with rfl | hc
            · exact ⟨C, List.mem_cons_self, rfl, hw⟩
            · obtain ⟨C', hC', h1, h2⟩ := ih orig' ho' out' hout c hc
              exact ⟨C', List.mem_cons_of_mem _ hC', h1, h2⟩

/-- **C69, total correctness of the irrational all-primal variant.** -/
theorem c69_total_irrationalAllPrimal (N' : Ntl (m + 1)) (hN : N'.Ok) (hR : N'.ShortestRow) (X : Smith.Xgcd)
    (irr : Cone (m + 1) → Fin (m + 1) → ℚ) (lp : Solver (m + 1)) (hlp : SolverOk lp) (depth : VertexCone (m + 1) → ℕ)
    (hd : ∀ C, EstimateGeneralOk (depth C) C.rays)
    (maxDet : ℤ) (h1 : 1 ≤ maxDet) (hmax : maxDet ≤ Piped.intMax) (fuel : ℕ) (hfuel : maxDet < fuel)
    (a : Fin N → Vec (m + 1)) (b : Fin N → ℚ)
    (cones : List (VertexCone (m + 1))) (hvs : IsVertexList a b (cones.map (·.vertex))) (hC : ∀ C ∈ cones, TangentCone a b C)
    (hint : ∀ c ∈ cones, ∃ z : Vec (m + 1), ∀ k, (z k : ℚ) = c.vertex k) :
    ∃ orig, toOriginPrimal cones = some orig ∧ ∃ moved, irrationalizeE lp depth orig = some moved ∧
      ∃ D, (∃ lam, GenericForE lam D) ∧ ∀ (t : ℕ) (guesses : ℕ → Vec (m + 1)),
        (∀ s < t, ¬ GenericForE (guesses s) D) → GenericForE (guesses t) D → ∀ tries, t < tries →
        ∃ coeffs, decomposeAndEhrhart N' X .irrationalAllPrimal irr maxDet fuel moved tries guesses = .ok coeffs ∧ IsEhrhart a b coeffs := by
  have h0 : maxDet ≠ 0 := by omega
  have hd1 : ∀ C, 1 ≤ depth C := by
    intro C
    obtain ⟨t, ht, -⟩ := hd C
    omega
  obtain ⟨orig, ho⟩ : ∃ orig, toOriginPrimal cones = some orig := by
    cases h : toOriginPrimal cones with
    | some out => exact ⟨out, rfl⟩
    | none =>
      obtain ⟨c, hc, hn⟩ := (c69_rejects_primal cones).1 h
      exact absurd (hint c hc) hn
  obtain ⟨moved, hm, hval⟩ := c69_irrationalAllPrimal N' hN X irr lp hlp depth hd1 maxDet h0 hmax fuel hfuel a b cones hvs hC orig ho
  obtain ⟨D, hD⟩ := deliveredE_of_single N' .irrationalAllPrimal irr maxDet moved (by
    intro c hc B hB out md
    obtain ⟨C, hCm, hsim, hw⟩ := movedE_spec lp depth cones orig ho moved hm c hc
    obtain ⟨ht, -⟩ := tangentCone_origin a b C (hC C hCm)
    obtain ⟨u, hu⟩ := inner_point a _ _ ht
    rw [hsim] at hB
    exact single_allPrimal N' hN hR irr lp hlp (depth { C with vertex := 0 }) C.rays C.facets (hd { C with vertex := 0 }) ht.facets_ne
      ht.facet_ne 0 u hu c.vertex hw maxDet h1 B (ht.triangulated.simplicial B hB) (ht.rays B hB) out md)
  refine ⟨orig, ho, moved, hm, D, c69_generic_exists N' hN .irrationalAllPrimal _ maxDet h0 hmax moved D hD,
    fun t guesses hbad hgood tries ht => ?_⟩
  obtain ⟨c, hc⟩ := c69_ends N' hN X .irrationalAllPrimal irr maxDet h0 hmax fuel hfuel moved D hD t guesses hbad hgood tries ht
  exact ⟨c, hc, hval tries guesses c hc⟩

/-! ### Tight inequalities -/

/-- One round of the inner loop of `computeTightInequalitiesOfCones` (dual.cpp:289–305): an inequality `(β, α)`, meaning `β + α · x ≥ 0`, with scalar
product zero is put in front of the list, negated and without its first entry. -/
def tightStep (scale : ℤ) (scaled : Vec n) (acc : List (Vec n)) (ineq : ℤ × Vec n) : List (Vec n) :=
  if scale * ineq.1 + ∑ i, scaled i * ineq.2 i = 0 then (fun i => -ineq.2 i) :: acc else acc

/-- `computeTightInequalitiesOfCones` (dual.cpp:277–309) for one cone: facets that are there already are kept. -/
def computeTight (ineqs : List (ℤ × Vec n)) (vertex : Fin n → ℚ) (facets : List (Vec n)) : List (Vec n) :=
  if facets = [] then ineqs.foldl (tightStep (vertexScale vertex) (vertexScaled vertex)) [] else facets

theorem mem_foldl_tight (scale : ℤ) (scaled : Vec n) (f : Vec n) : ∀ (ineqs : List (ℤ × Vec n)) (acc : List (Vec n)),
    f ∈ ineqs.foldl (tightStep scale scaled) acc ↔
      f ∈ acc ∨ ∃ q ∈ ineqs, scale * q.1 + ∑ i, scaled i * q.2 i = 0 ∧ f = fun i => -q.2 i := by
  intro ineqs
  induction ineqs with
  | nil => intro acc; simp
  | cons q qs ih =>
    intro acc
    rw [List.foldl_cons, ih, List.exists_mem_cons_iff]
    unfold tightStep
    split_ifs with h
    · rw [List.mem_cons]
      constructor
      · rintro ((e | hm) | hq)
        · exact Or.inr (Or.inl ⟨h, e⟩)
        · exact Or.inl hm
        · exact Or.inr (Or.inr hq)
      · rintro (hm | ⟨-, e⟩ | hq)
        · exact Or.inl (Or.inr hm)
        · exact Or.inl (Or.inl e)
        · exact Or.inr hq
    · constructor
      · rintro (hm | hq)
        · exact Or.inl hm
        · exact Or.inr (Or.inr hq)
      · rintro (hm | ⟨h', -⟩ | hq)
        · exact Or.inl hm
        · exact absurd h' h
        · exact Or.inr hq

theorem tight_iff (q : ℤ × Vec n) (v : Fin n → ℚ) :
    vertexScale v * q.1 + ∑ i, vertexScaled v i * q.2 i = 0 ↔ (q.1 : ℚ) + ∑ i, (q.2 i : ℚ) * v i = 0 := by
  have h0 : ((vertexScale v : ℤ) : ℚ) ≠ 0 := by exact_mod_cast vertexScale_ne v
  have e : ((vertexScale v * q.1 + ∑ i, vertexScaled v i * q.2 i : ℤ) : ℚ) = (vertexScale v : ℚ) * ((q.1 : ℚ) + ∑ i, (q.2 i : ℚ) * v i) := by
    push_cast
    rw [mul_add, Finset.mul_sum]
    congr 1
    refine Finset.sum_congr rfl fun i _ => ?_
    have := vertexScaled_div v i
    rw [div_eq_iff h0] at this
    rw [this]
    ring
  constructor
  · intro h
    rw [h, Int.cast_zero] at e
    exact (mul_eq_zero.1 e.symm).resolve_left h0
  · intro h
    rw [h, mul_zero] at e
    exact_mod_cast e

/-- **C69, facets from tight inequalities.** For a cone without facets, the facets found are exactly the outer normals of the inequalities
`βᵢ + αᵢ · x ≥ 0` that are equations at the vertex. -/
theorem c69_tight (ineqs : List (ℤ × Vec n)) (vertex : Fin n → ℚ) (f : Vec n) : f ∈ computeTight ineqs vertex [] ↔
    ∃ q ∈ ineqs, (q.1 : ℚ) + ∑ i, (q.2 i : ℚ) * vertex i = 0 ∧ f = fun i => -q.2 i := by
  unfold computeTight
  rw [if_pos rfl, mem_foldl_tight]
  simp only [List.not_mem_nil, false_or, tight_iff]

/-- The polyhedron given by the rows. -/
def normals (ineqs : List (ℤ × Vec n)) : Fin ineqs.length → Vec n := fun i k => -(ineqs.get i).2 k

/-- The right-hand sides. -/
def sides (ineqs : List (ℤ × Vec n)) : Fin ineqs.length → ℚ := fun i => (ineqs.get i).1

/-- These facets describe the tangent cone at the vertex, as the all-primal variant needs it; and they generate the normal cone, which is what
the dual variant triangulates. -/
theorem c69_tight_tangent (ineqs : List (ℤ × Vec n)) (vertex : Fin n → ℚ) :
    (∀ y, (∀ f ∈ computeTight ineqs vertex [], dot f y ≤ 0) ↔ y ∈ tangent (normals ineqs) (sides ineqs) vertex) ∧
    {f | f ∈ computeTight ineqs vertex []} = normals ineqs '' active (normals ineqs) (sides ineqs) vertex := by
  have hact : ∀ i, i ∈ active (normals ineqs) (sides ineqs) vertex ↔
      ((ineqs.get i).1 : ℚ) + ∑ k, ((ineqs.get i).2 k : ℚ) * vertex k = 0 := by
    intro i
    show ∑ k, ((-(ineqs.get i).2 k : ℤ) : ℚ) * vertex k = ((ineqs.get i).1 : ℚ) ↔ _
    have : ∑ k, ((-(ineqs.get i).2 k : ℤ) : ℚ) * vertex k = - ∑ k, ((ineqs.get i).2 k : ℚ) * vertex k := by
      rw [← Finset.sum_neg_distrib]
      refine Finset.sum_congr rfl fun k _ => ?_
      push_cast
      ring
    rw [this]
    constructor <;> intro h <;> linarith
  have hset : ∀ f, f ∈ computeTight ineqs vertex [] ↔ ∃ i ∈ active (normals ineqs) (sides ineqs) vertex, f = normals ineqs i := by
    intro f
    rw [c69_tight]
    constructor
    · rintro ⟨q, hq, h, rfl⟩
      obtain ⟨i, rfl⟩ := List.get_of_mem hq
      exact ⟨i, (hact i).2 h, rfl⟩
    · rintro ⟨i, hi, rfl⟩
      exact ⟨_, List.get_mem _ i, (hact i).1 hi, rfl⟩
  refine ⟨fun y => ⟨fun h i hi => h _ ((hset _).2 ⟨i, hi, rfl⟩), fun h f hf => ?_⟩, ?_⟩
  · obtain ⟨i, hi, rfl⟩ := (hset f).1 hf
    exact h i hi
  · ext f
    rw [Set.mem_ofPred_eq, hset]
    constructor
    · rintro ⟨i, hi, rfl⟩; exact ⟨i, hi, rfl⟩
    · rintro ⟨i, hi, rfl⟩; exact ⟨i, hi, rfl⟩

/-- **C69, the order of the steps is harmless.** After the first call, the call made after the vertices were moved to the origin (count.cpp:404–411)
changes nothing at a vertex of a polyhedron, in positive dimension. -/
theorem c69_tight_again (ineqs : List (ℤ × Vec (m + 1))) (vertex : Fin (m + 1) → ℚ)
    (hv : (fun k => (vertex k : ℝ)) ∈ (Poly (normals ineqs) fun i => (sides ineqs i : ℝ)).extremePoints ℝ) (w : Fin (m + 1) → ℚ) :
    computeTight ineqs w (computeTight ineqs vertex []) = computeTight ineqs vertex [] := by
  have hne : computeTight ineqs vertex [] ≠ [] := by
    intro h0
    have hz := ((extreme_iff _ _ _).1 hv).2 (fun _ => 1) (fun i hi => by
      have hm : normals ineqs i ∈ {f | f ∈ computeTight ineqs vertex []} := by
        rw [(c69_tight_tangent ineqs vertex).2]
        refine ⟨i, ?_, rfl⟩
        rw [dot_cast] at hi
        exact_mod_cast hi
      rw [h0] at hm
      cases hm)
    have := congrFun hz 0
    norm_num at this
  conv_lhs => unfold computeTight
  rw [if_neg]
  · rfl
  · exact hne

end Verif.Brion
