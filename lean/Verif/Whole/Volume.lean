import Verif.Whole.Ehrhart
import Verif.Valuation.Bridge
import Verif.Valuation.ConeEnds
import Verif.CddV.Edges

/-!
# C93: the volume of the polytope in a file, end to end

`integrate --valuation=volume FILE` and `integrate --valuation=volume --cone-decompose FILE`: `mainValuationDriver`, `polyhedronToCones`, `computeVolume`
(`code/latte/valuation/valuation.cpp`), put together from the models of the parts: reading and eliminating (C91, C92), vertex cones with cdd (C88), triangulations (C75) and the two
methods for volumes (C51, C55).
-/

namespace Verif.Whole

open MeasureTheory Verif.Barvinok Verif.Barvinok.Spec Verif.Ti2 Verif.Brion Verif.Files Verif.Preprocess Verif.Valuation Latte.RatVec
open Verif.ExpSubst (Fail)

variable {n m d : ℕ}

/-! ## Model -/

/-- A cone as `PolytopeValuation` sees it (PolytopeValuation.cpp:42): vertex as numerators and denominators, rays, coefficient 1 (cdd.cpp:560–626). -/
def toVCone (C : GCone n) : VCone := ⟨ofEntries (List.ofFn fun k => ((C.vertex k).num, ((C.vertex k).den : ℤ))), C.rays.map toList, 1⟩

/-- `triangulateCone`, triangulate.cpp:100–111: call number `i` for a cone; the parts are collected in a list (C75, `collect`), each with the vertex of the cone and coefficient 1.
The random numbers of the calls are part of `tri`. -/
def engine (n : ℕ) (tri : ℕ → List (Vec n) → ℕ → Except Fail (List (List (Vec n)) × ℕ)) (i : ℕ) (c : VCone) : List VCone :=
  match tri i (c.rays.map (ofList n)) 0 with
  | .ok (parts, _) => (Regular.collect parts).map fun p => ⟨c.vertex, p.map toList, 1⟩
  | .error _ => []

/-- The first of the calls for a list of cones that fails.  Parts that are not simplices lead to an error in NTL (PolytopeValuation.cpp:1146, 1236–1249: the matrices are square). -/
def callsFail (n : ℕ) (tri : ℕ → List (Vec n) → ℕ → Except Fail (List (List (Vec n)) × ℕ)) : ℕ → List VCone → Option Fail
  | _, [] => none
  | i, c :: cs =>
    match tri i (c.rays.map (ofList n)) 0 with
    | .error e => some e
    | .ok (parts, _) => if ∀ p ∈ parts, p.length = n then callsFail n tri (i + 1) cs else some .abort

/-- How the program ends: with a list of answers printed (valuation.cpp:1212–1263); with the exception that the answers of the two methods differ; or before that. -/
inductive VolumeEnding where
  | answers (l : List ℚ)
  | differ
  | ended (e : Ending)
  deriving DecidableEq

/-- The method options (valuation.cpp:1131–1144): none, or `--cone-decompose`. -/
inductive VolumeOption where
  | both
  | coneDecompose
  deriving DecidableEq

/-- The cone over the polytope (PolytopeValuation.cpp:85–150, 1380–1397). -/
def liftedCone (n : ℕ) (vs : List VCone) : VCone := ⟨ofDim (n + 1), (vs.map fun c => liftVertex c.vertex).reverse, 1⟩

/-- `findVolume(volumeTriangulation)` with what can go wrong in the triangulation (valuation.cpp:31–43). -/
def byTriangulation (T : Tools) (d : ℕ) (vs : List VCone) : Except Fail ℚ :=
  match callsFail (d + 2) (T.triangulate (d + 1)) 0 [liftedCone (d + 1) vs] with
  | some e => .error e
  | none =>
    match findVolume (engine (d + 2) (T.triangulate (d + 1))) .triangulation [] (ofCones (d + 1) vs) with
    | none => .error .abort
    | some (v, _) => .ok v

/-- `findVolume(volumeCone)` (valuation.cpp:45–59); `draws` are the values of `rand()`; if they do not suffice the loop has not ended. -/
def byCones (T : Tools) (draws : List ℕ) (d : ℕ) (vs : List VCone) : Except Fail ℚ :=
  match callsFail (d + 1) (T.triangulate d) 0 vs with
  | some e => .error e
  | none =>
    match findVolume (engine (d + 1) (T.triangulate d)) .cone draws (ofCones (d + 1) vs) with
    | none => .error .fuel
    | some (v, _) => .ok v

/-- `computeVolume`, valuation.cpp:18–70. -/
def computeVolume (T : Tools) (o : VolumeOption) (draws : List ℕ) (d : ℕ) (vs : List VCone) : VolumeEnding :=
  match o with
  | .both =>
    match byTriangulation T d vs with
    | .error e => .ended (.failed e)
    | .ok v₁ =>
      match byCones T draws d vs with
      | .error e => .ended (.failed e)
      | .ok v₂ => if v₁ ≠ v₂ then .differ else .answers [v₁, v₂]
  | .coneDecompose =>
    match byCones T draws d vs with
    | .error e => .ended (.failed e)
    | .ok v₂ => .answers [v₂]

/-- `matrixToVerticesOrCones` with cdd (ReadPolyhedron.cpp:293–330), `polyhedronToCones` (valuation.cpp:947–1005: the cones have rays, nothing is done) and `computeVolume`. -/
def volumeRows (T : Tools) (o : VolumeOption) (draws : List ℕ) : ∀ d, List (Row d) → VolumeEnding
  | 0, _ => .ended .undefined
  | d + 1, rows =>
    let ineqs : List (ℤ × Vec (d + 1)) := rows.map fun r => (r.b, r.a)
    match (CddV.computeVertexCones (T.vertices (d + 1) ineqs).1 (T.vertices (d + 1) ineqs).2 : CddV.Outcome (d + 1)) with
    | .done (some k) => .ended (.number k)
    | .done none => .ended .noNumber
    | .stop => .ended .stop
    | .undefined => .ended .undefined
    | .cones cones => computeVolume T o draws d (cones.map toVCone)

/-- **`integrate --valuation=volume FILE`**, valuation.cpp:379–944. -/
def volumeFile (T : Tools) (o : VolumeOption) (draws : List ℕ) (hermite : ℕ) (s : List Char) : VolumeEnding :=
  match fileRows T hermite s with
  | .ended e => .ended e
  | .rows d l => volumeRows T o draws d l

/-! ## The cones -/

theorem toVCone_vertexOk (C : GCone n) : VertexOk n (toVCone C).vertex := by
  refine ⟨by simp [toVCone, ofEntries], ?_, ?_, ?_⟩
  · intro e he
    simp only [toVCone, ofEntries, List.mem_ofFn] at he
    obtain ⟨k, rfl⟩ := he
    change (0:ℤ) < ((C.vertex k).den : ℤ)
    exact_mod_cast (C.vertex k).den_pos
  · intro h
    simp [toVCone, ofEntries] at h
  · intro h
    simp [toVCone, ofEntries] at h

theorem pointR_toVCone (C : GCone n) : pointR n (toVCone C).vertex = CddV.real C.vertex := by
  funext k
  unfold pointR CddV.real
  simp only [toVCone, ofEntries]
  rw [List.getD_eq_getElem _ _ (by simp), List.getElem_ofFn]
  simp only [Fin.eta]
  have := Rat.num_div_den (C.vertex k)
  exact_mod_cast congrArg (fun q : ℚ => (q : ℝ)) this

theorem convex_polyhedron (ineqs : List (ℤ × Vec n)) : Convex ℝ (Polyhedron ineqs) := by
  intro x hx y hy a b ha hb hab q hq
  have h1 := hx q hq
  have h2 := hy q hq
  have e : dot q.2 (a • x + b • y) = a * dot q.2 x + b * dot q.2 y := by
    unfold dot
    rw [Finset.mul_sum, Finset.mul_sum, ← Finset.sum_add_distrib]
    exact Finset.sum_congr rfl fun k _ => by simp; ring
  rw [e]
  have h3 := mul_nonneg ha h1
  have h4 := mul_nonneg hb h2
  have h5 : (q.1 : ℝ) = a * q.1 + b * q.1 := by rw [← add_mul, hab, one_mul]
  linarith

theorem continuous_dot (f : Vec n) : Continuous fun x : Fin n → ℝ => dot f x := by
  unfold dot
  fun_prop

theorem closed_polyhedron (ineqs : List (ℤ × Vec n)) : IsClosed (Polyhedron ineqs) := by
  have : Polyhedron ineqs = ⋂ q ∈ {q | q ∈ ineqs}, {x | 0 ≤ (q.1 : ℝ) + dot q.2 x} := by
    ext x
    simp [Polyhedron]
  rw [this]
  exact isClosed_biInter fun q _ => isClosed_le continuous_const (continuous_const.add (continuous_dot q.2))

/-- The polytope spanned by the vertices is the polyhedron. -/
theorem polytope_eq (ineqs : List (ℤ × Vec n)) (hb : Bornology.IsBounded (Polyhedron ineqs)) (cones : List (GCone n))
    (hv : IsVertexList (normals ineqs) (sides ineqs) (cones.map (·.vertex))) : polytope n (cones.map toVCone) = Polyhedron ineqs := by
  have hset : {x | ∃ c ∈ cones.map toVCone, x = pointR n c.vertex} = (Polyhedron ineqs).extremePoints ℝ := by
    ext x
    rw [polyhedron_eq, ← hv.mem]
    constructor
    · rintro ⟨c, hc, rfl⟩
      obtain ⟨C, hC, rfl⟩ := List.mem_map.1 hc
      exact ⟨C.vertex, List.mem_map_of_mem hC, pointR_toVCone C⟩
    · rintro ⟨v, hv, rfl⟩
      obtain ⟨C, hC, rfl⟩ := List.mem_map.1 hv
      exact ⟨_, List.mem_map_of_mem hC, (pointR_toVCone C).symm⟩
  have hfin : ((Polyhedron ineqs).extremePoints ℝ).Finite := by
    rw [← hset]
    refine ((cones.map toVCone).map fun c => pointR n c.vertex).toFinset.finite_toSet.subset ?_
    rintro x ⟨c, hc, rfl⟩
    rw [List.coe_toFinset]
    exact List.mem_map.2 ⟨c, hc, rfl⟩
  have hcomp : IsCompact (Polyhedron ineqs) := Metric.isCompact_of_isClosed_isBounded (closed_polyhedron ineqs) hb
  unfold polytope
  rw [hset, ← (Set.Finite.isCompact_convexHull (𝕜 := ℝ) hfin).isClosed.closure_eq, closure_convexHull_extremePoints hcomp (convex_polyhedron ineqs)]

theorem tangent_feasible (a : Fin m → Vec n) (b : Fin m → ℚ) (v : Fin n → ℚ) (hv : CddV.real v ∈ Poly a fun i => (b i : ℝ)) :
    tangent a b v = {y | ∃ t : ℝ, 0 < t ∧ CddV.real v + t • y ∈ Poly a fun i => (b i : ℝ)} := by
  ext y
  constructor
  · intro hy
    obtain ⟨t, h1, h2⟩ := ((CddV.small_step hv hy).and self_mem_nhdsWithin).exists
    exact ⟨t, h2, h1⟩
  · rintro ⟨t, ht, hm⟩
    have h1 := CddV.sub_mem_tangent (v := v) hm
    rw [add_sub_cancel_left] at h1
    have h2 := CddV.smul_mem_tangent (inv_nonneg.2 ht.le) h1
    rwa [smul_smul, inv_mul_cancel₀ ht.ne', one_smul] at h2

theorem real_injective : Function.Injective (CddV.real : (Fin n → ℚ) → Fin n → ℝ) := by
  intro v w h
  funext k
  have := congrFun h k
  unfold CddV.real at this
  exact_mod_cast this

/-- The cones found are the tangent cones as the class for valuations expects them. -/
theorem tangentCones (ineqs : List (ℤ × Vec n)) (hb : Bornology.IsBounded (Polyhedron ineqs)) (cones : List (GCone n)) (hne : cones ≠ [])
    (hv : IsVertexList (normals ineqs) (sides ineqs) (cones.map (·.vertex)))
    (hr : ∀ C ∈ cones, Regular.generated C.rays = tangent (normals ineqs) (sides ineqs) C.vertex) : TangentCones n (cones.map toVCone) := by
  have hP := polytope_eq ineqs hb cones hv
  have hext : ∀ C ∈ cones, CddV.real C.vertex ∈ (Polyhedron ineqs).extremePoints ℝ := fun C hC => by
    rw [polyhedron_eq, ← hv.mem]
    exact ⟨C.vertex, List.mem_map_of_mem hC, rfl⟩
  refine ⟨by simpa using hne, ?_, ?_, ?_, ?_⟩
  · intro c hc
    obtain ⟨C, -, rfl⟩ := List.mem_map.1 hc
    exact toVCone_vertexOk C
  · rw [List.map_map]
    have : (cones.map ((fun c => pointR n c.vertex) ∘ toVCone)) = (cones.map (·.vertex)).map CddV.real := by
      rw [List.map_map]
      exact List.map_congr_left fun C _ => pointR_toVCone C
    rw [this]
    exact hv.nodup.map real_injective
  · intro c hc
    obtain ⟨C, hC, rfl⟩ := List.mem_map.1 hc
    rw [hP, pointR_toVCone]
    exact hext C hC
  · intro c hc
    obtain ⟨C, hC, rfl⟩ := List.mem_map.1 hc
    rw [hP, pointR_toVCone, polyhedron_eq, ← tangent_feasible _ _ _ (by rw [← polyhedron_eq]; exact (hext C hC).1), ← hr C hC]
    exact rayCone_toList C.rays

/-! ## Full dimension -/

theorem full_dot {A : Set (Fin n → ℝ)} (h : (interior A).Nonempty) (y : Fin n → ℝ) (c : ℝ) (hA : ∀ x ∈ A, ∑ k, x k * y k = c) : y = 0 := by
  obtain ⟨x, hx⟩ := h
  have hcont : Continuous fun t : ℝ => x + t • y := by fun_prop
  have hmem : ∀ᶠ t in nhds (0:ℝ), x + t • y ∈ A := by
    have h0 : x + (0:ℝ) • y = x := by simp
    have : Filter.Tendsto (fun t : ℝ => x + t • y) (nhds 0) (nhds x) := by
      have := hcont.tendsto 0
      rwa [h0] at this
    exact (this.eventually (mem_interior_iff_mem_nhds.1 hx))
  obtain ⟨ε, hε, hball⟩ := Metric.eventually_nhds_iff.1 hmem
  have h1 := hA _ (hball (y := ε / 2) (by rw [Real.dist_eq, sub_zero, abs_of_pos (by positivity)]; linarith))
  have h2 := hA x (interior_subset hx)
  have e : ∑ k, (x + (ε / 2) • y) k * y k = ∑ k, x k * y k + ε / 2 * ∑ k, y k * y k := by
    rw [Finset.mul_sum, ← Finset.sum_add_distrib]
    exact Finset.sum_congr rfl fun k _ => by simp; ring
  rw [e, h2] at h1
  have h3 : ∑ k, y k * y k = 0 := by
    have : ε / 2 * ∑ k, y k * y k = 0 := by linarith
    exact (mul_eq_zero.1 this).resolve_left (by positivity)
  funext k
  exact mul_self_eq_zero.1 ((Finset.sum_eq_zero_iff_of_nonneg fun k _ => mul_self_nonneg _).1 h3 k (Finset.mem_univ k))

/-- The rays at a vertex of a full-dimensional polytope span the space. -/
theorem spans_rays (ineqs : List (ℤ × Vec n)) (hi : (interior (Polyhedron ineqs)).Nonempty) (v : Fin n → ℚ) (L : List (Vec n))
    (hr : Regular.generated L = tangent (normals ineqs) (sides ineqs) v) : Regular.Spans L := by
  intro y hy
  refine full_dot hi y (∑ k, CddV.real v k * y k) fun x hx => ?_
  rw [polyhedron_eq] at hx
  have hm := CddV.sub_mem_tangent (v := v) hx
  rw [← hr, Regular.generated_iff] at hm
  have h1 := hm y fun r hr => (hy r hr).le
  have h2 := hm (-y) fun r hr => by rw [Regular.dot_neg, hy r hr, neg_zero]
  have e1 : ∑ k, (x - CddV.real v) k * y k = ∑ k, x k * y k - ∑ k, CddV.real v k * y k := by
    rw [← Finset.sum_sub_distrib]
    exact Finset.sum_congr rfl fun k _ => by simp; ring
  have e2 : ∑ k, (x - CddV.real v) k * (-y) k = -∑ k, (x - CddV.real v) k * y k := by
    rw [← Finset.sum_neg_distrib]
    exact Finset.sum_congr rfl fun k _ => by simp
  rw [e2] at h2
  rw [e1] at h1 h2
  linarith

/-! ## The triangulation of the cones at the vertices -/

theorem callsFail_none (tri : ℕ → List (Vec n) → ℕ → Except Fail (List (List (Vec n)) × ℕ)) : ∀ (cs : List VCone) (i : ℕ), callsFail n tri i cs = none ↔
    ∀ (j : ℕ) (c : VCone), cs[j]? = some c → ∃ parts k, tri (i + j) (c.rays.map (ofList n)) 0 = .ok (parts, k) ∧ ∀ p ∈ parts, p.length = n := by
  intro cs
  induction cs with
  | nil => intro i; simp [callsFail]
  | cons c cs ih =>
    intro i
    have hsplit : (∀ (j : ℕ) (c' : VCone), (c :: cs)[j]? = some c' → ∃ parts k, tri (i + j) (c'.rays.map (ofList n)) 0 = .ok (parts, k) ∧ ∀ p ∈ parts, p.length = n) ↔
        (∃ parts k, tri i (c.rays.map (ofList n)) 0 = .ok (parts, k) ∧ ∀ p ∈ parts, p.length = n) ∧
          ∀ (j : ℕ) (c' : VCone), cs[j]? = some c' → ∃ parts k, tri (i + 1 + j) (c'.rays.map (ofList n)) 0 = .ok (parts, k) ∧ ∀ p ∈ parts, p.length = n := by
      constructor
      · intro h
        refine ⟨by simpa using h 0 c rfl, fun j c' hc => ?_⟩
        have := h (j + 1) c' (by simpa using hc)
        rwa [show i + (j + 1) = i + 1 + j by omega] at this
      · rintro ⟨h0, h1⟩ j c' hc
        cases j with
        | zero =>
          simp only [List.getElem?_cons_zero, Option.some.injEq] at hc
          subst hc
          simpa using h0
        | succ j =>
          have := h1 j c' (by simpa using hc)
          rwa [show i + 1 + j = i + (j + 1) by omega] at this
    rw [hsplit, ← ih (i + 1), callsFail]
    generalize tri i (c.rays.map (ofList n)) 0 = o
    match o with
    | .error e => simp
    | .ok (parts, k) =>
      dsimp only
      by_cases hp : ∀ p ∈ parts, p.length = n
      · rw [if_pos hp]
        exact ⟨fun h => ⟨⟨parts, k, rfl, hp⟩, h⟩, fun h => h.2⟩
      · rw [if_neg hp]
        refine ⟨(fun h => by cases h), fun h => ?_⟩
        obtain ⟨⟨parts', k', e, h'⟩, -⟩ := h
        cases e
        exact absurd h' hp

theorem ofList_map_toList (L : List (Vec n)) : (L.map toList).map (ofList n) = L := by
  rw [List.map_map]
  conv_rhs => rw [← List.map_id L]
  exact List.map_congr_left fun r _ => ofList_toList r

/-- The engine keeps the contract of the cone method if no call fails. -/
theorem engine_cones (tri : ℕ → List (Vec n) → ℕ → Except Fail (List (List (Vec n)) × ℕ)) (ht : ∀ i, Regular.TriangulationOk (tri i)) (cones : List (GCone n))
    (hs : ∀ C ∈ cones, Regular.Spans C.rays) (hcalls : callsFail n tri 0 (cones.map toVCone) = none) :
    TriangulatesCones (engine n tri) n (cones.map toVCone) := by
  intro i c hc w _ _
  obtain ⟨parts, k, e, hlen⟩ := (callsFail_none tri _ 0).1 hcalls i c hc
  rw [zero_add] at e
  rw [List.getElem?_map, Option.map_eq_some_iff] at hc
  obtain ⟨C, hC, rfl⟩ := hc
  have hC' := List.mem_of_getElem? hC
  have er : (toVCone C).rays.map (ofList n) = C.rays := ofList_map_toList C.rays
  have hsub := ht i _ _ _ _ (by rw [er]; exact hs C hC') e
  rw [er] at hsub
  have hE : engine n tri i { toVCone C with vertex := w } = (Regular.collect parts).map fun p => ⟨w, p.map toList, 1⟩ := by
    unfold engine
    dsimp only
    rw [e]
  rw [hE, Regular.collect_eq]
  exact simplicial_of_subdivides w C.rays parts.reverse hsub.reverse (fun p hp => hlen p (List.mem_reverse.1 hp)) 1

/-- The cone method. -/
theorem byCones_right {T : Tools} (hT : ∀ d t, Regular.TriangulationOk (T.triangulate d t)) (draws : List ℕ) (cones : List (GCone (d + 1)))
    (h : TangentCones (d + 1) (cones.map toVCone)) (hs : ∀ C ∈ cones, Regular.Spans C.rays) (v : ℚ) (hv : byCones T draws d (cones.map toVCone) = .ok v) :
    (v : ℝ) = (volume (polytope (d + 1) (cones.map toVCone))).toReal := by
  unfold byCones at hv
  split at hv
  · cases hv
  rename_i hc
  split at hv
  · cases hv
  rename_i v' p' hf
  cases hv
  exact c55_volume _ _ _ h (engine_cones _ (hT d) cones hs hc) draws v p' hf

/-! ## The triangulation of the cone over the polytope -/

theorem liftedCone_rays (cones : List (GCone n)) : ∀ r ∈ (liftedCone n (cones.map toVCone)).rays, r.length = n + 1 ∧ 0 < r.getD n 0 := by
  intro r hr
  simp only [liftedCone, List.mem_reverse, List.mem_map] at hr
  obtain ⟨c, ⟨C, -, rfl⟩, rfl⟩ := hr
  obtain ⟨l1, l2, l3, l4⟩ := liftVertex_spec n _ (toVCone_vertexOk C)
  exact ⟨l1, l3⟩

theorem hull_lifted (cones : List (GCone n)) : hull n (liftedCone n (cones.map toVCone)).rays = polytope n (cones.map toVCone) := by
  unfold hull polytope
  congr 1
  ext x
  simp only [liftedCone, List.mem_reverse, List.mem_map, Set.mem_ofPred_eq]
  constructor
  · rintro ⟨r, ⟨c, ⟨C, hC, rfl⟩, rfl⟩, rfl⟩
    exact ⟨_, ⟨C, hC, rfl⟩, (liftVertex_spec n _ (toVCone_vertexOk C)).2.2.2⟩
  · rintro ⟨c, ⟨C, hC, rfl⟩, rfl⟩
    exact ⟨_, ⟨_, ⟨C, hC, rfl⟩, rfl⟩, (liftVertex_spec n _ (toVCone_vertexOk C)).2.2.2.symm⟩

theorem lifted_toList (cones : List (GCone n)) : ((liftedCone n (cones.map toVCone)).rays.map (ofList (n + 1))).map toList = (liftedCone n (cones.map toVCone)).rays := by
  rw [List.map_map]
  conv_rhs => rw [← List.map_id (liftedCone n (cones.map toVCone)).rays]
  exact List.map_congr_left fun r hr => toList_ofList r (liftedCone_rays cones r hr).1

theorem lifted_pos (cones : List (GCone n)) : ∀ r ∈ (liftedCone n (cones.map toVCone)).rays.map (ofList (n + 1)), 0 < r (Fin.last n) := by
  intro r hr
  obtain ⟨q, hq, rfl⟩ := List.mem_map.1 hr
  exact (liftedCone_rays cones q hq).2

/-- The rays of the cone over a full-dimensional polytope span the space. -/
theorem spans_lifted (cones : List (GCone n)) (hi : (interior (polytope n (cones.map toVCone))).Nonempty) :
    Regular.Spans ((liftedCone n (cones.map toVCone)).rays.map (ofList (n + 1))) := by
  set L := (liftedCone n (cones.map toVCone)).rays.map (ofList (n + 1)) with hL
  intro z hz
  have key : ∀ x ∈ polytope n (cones.map toVCone), ∑ k : Fin n, x k * z k.castSucc = -z (Fin.last n) := by
    intro x hx
    rw [← hull_lifted, ← lifted_toList, ← hL, mem_hull_toList L (lifted_pos cones), Regular.generated_iff] at hx
    have h1 := hx z fun r hr => (hz r hr).le
    have h2 := hx (-z) fun r hr => by rw [Regular.dot_neg, hz r hr, neg_zero]
    have e1 : ∑ k, atOne x k * z k = ∑ k : Fin n, x k * z k.castSucc + z (Fin.last n) := by
      rw [Fin.sum_univ_castSucc]
      simp [atOne]
    have e2 : ∑ k, atOne x k * (-z) k = -∑ k, atOne x k * z k := by
      rw [← Finset.sum_neg_distrib]
      exact Finset.sum_congr rfl fun k _ => by simp
    rw [e2] at h2
    rw [e1] at h1 h2
    linarith
  have h0 := full_dot hi (fun k => z k.castSucc) _ key
  have hk : ∀ k : Fin n, z k.castSucc = 0 := fun k => congrFun h0 k
  obtain ⟨x, hx⟩ := hi
  have hlast := key x (interior_subset hx)
  simp only [hk, mul_zero, Finset.sum_const_zero] at hlast
  funext k
  refine Fin.lastCases ?_ (fun k => ?_) k
  · change z (Fin.last n) = 0
    linarith
  · exact hk k

/-- The triangulation method: if the triangulation goes through, there is an answer, and it is right. -/
theorem byTriangulation_right {T : Tools} (hT : ∀ d t, Regular.TriangulationOk (T.triangulate d t)) (cones : List (GCone (d + 1)))
    (hi : (interior (polytope (d + 1) (cones.map toVCone))).Nonempty)
    (hcalls : callsFail (d + 2) (T.triangulate (d + 1)) 0 [liftedCone (d + 1) (cones.map toVCone)] = none) :
    ∃ v, byTriangulation T d (cones.map toVCone) = .ok v ∧ (v : ℝ) = (volume (polytope (d + 1) (cones.map toVCone))).toReal := by
  obtain ⟨parts, k, e, hlen⟩ := (callsFail_none _ _ 0).1 hcalls 0 _ rfl
  rw [zero_add] at e
  set L := (liftedCone (d + 1) (cones.map toVCone)).rays.map (ofList (d + 1 + 1)) with hL
  have hsub := hT _ _ _ _ _ _ (spans_lifted cones hi) e
  obtain ⟨hpos, hcover, hover⟩ := hull_of_subdivides L (lifted_pos cones) parts.reverse hsub.reverse fun p hp => hlen p (List.mem_reverse.1 hp)
  have hE : engine (d + 2) (T.triangulate (d + 1)) 0 (liftedCone (d + 1) (cones.map toVCone)) =
      parts.reverse.map fun p => ⟨ofDim (d + 1 + 1), p.map toList, 1⟩ := by
    unfold engine
    rw [e]
    dsimp only
    rw [Regular.collect_eq]
    rfl
  set cs : List VCone := parts.reverse.map fun p => ⟨ofDim (d + 1 + 1), p.map toList, 1⟩ with hcs
  have hrays : cs.map (·.rays) = parts.reverse.map (List.map toList) := by rw [hcs, List.map_map]; rfl
  obtain ⟨v, e1, e2⟩ := volumeLoop_spec (d + 1) cs (fun c hc => by
    obtain ⟨p, hp, rfl⟩ := List.mem_map.1 hc
    refine ⟨by simpa using hlen p (List.mem_reverse.1 hp), fun r hr => ?_⟩
    obtain ⟨q, hq, rfl⟩ := List.mem_map.1 hr
    have h1 := toList_getD q (Fin.last (d + 1))
    rw [Fin.val_last] at h1
    rw [h1]
    exact hpos p hp q hq) 0
  have hvol : (volume (polytope (d + 1) (cones.map toVCone))).toReal = (cs.map fun c => (volume (hull (d + 1) c.rays)).toReal).sum := by
    have h1 := integral_triangulated (d + 1) (fun _ => (1:ℝ)) continuous_const (parts.reverse.map (List.map toList)) hover
    rw [← hcover, lifted_toList, hull_lifted, ← hrays, List.map_map] at h1
    simpa [measureReal_restrict_apply_univ, Measure.real, Function.comp_def] using h1
  refine ⟨v, ?_, by rw [e2, hvol]; simp⟩
  have hf : findVolume (engine (d + 2) (T.triangulate (d + 1))) .triangulation [] (ofCones (d + 1) (cones.map toVCone)) =
      some (v, ⟨d + 1, d + 1 + 1, some (cones.map toVCone), some (liftedCone (d + 1) (cones.map toVCone)).rays, some cs⟩) := by
    unfold findVolume
    simp only
    have h1 : convertToOneCone (ofCones (d + 1) (cones.map toVCone)) =
        some ⟨d + 1, d + 1 + 1, some (cones.map toVCone), some (liftedCone (d + 1) (cones.map toVCone)).rays, none⟩ := by
      unfold convertToOneCone ofCones liftedCone
      simp
    rw [h1, Option.bind_some]
    have h2 : triangulateOneCone (engine (d + 2) (T.triangulate (d + 1)))
        ⟨d + 1, d + 1 + 1, some (cones.map toVCone), some (liftedCone (d + 1) (cones.map toVCone)).rays, none⟩ =
        some ⟨d + 1, d + 1 + 1, some (cones.map toVCone), some (liftedCone (d + 1) (cones.map toVCone)).rays, some cs⟩ := by
      unfold triangulateOneCone
      simp only [Option.isSome_none, Bool.false_eq_true, if_false]
      rw [← hE]
      rfl
    rw [h2, Option.bind_some]
    simp only [Option.getD_some]
    rw [e1]
    rfl
  unfold byTriangulation
  rw [hcalls]
  dsimp only
  rw [hf]

/-! ## From the inequalities to the answers -/

/-- A polyhedron with interior points has at least two vertices. -/
theorem two_vertices {ineqs : List (ℤ × Vec (d + 1))} {rows : List (List ℚ)} {ead : List CddV.Tok} (hc : CddV.CddOk ineqs rows ead)
    (hb : Bornology.IsBounded (Polyhedron ineqs)) (hi : (interior (Polyhedron ineqs)).Nonempty) : 2 ≤ rows.length := by
  have hvs := hc.vertices (CddV.no_direction hc hb)
  by_contra hlt
  match rows, hvs, hlt with
  | [], hvs, _ =>
    obtain ⟨x, hx⟩ := CddV.exists_vertex hb (hi.mono interior_subset)
    rw [polyhedron_eq, ← hvs.mem] at hx
    obtain ⟨v, hv, -⟩ := hx
    cases hv
  | [r], hvs, _ =>
    have hP := CddV.single_point (CddV.rowPoint r) hvs hb
    have h0 := full_dot hi (Pi.single 0 1) (CddV.real (CddV.rowPoint r : Fin (d + 1) → ℚ) 0) fun x hx => by
      rw [hP, Set.mem_singleton_iff] at hx
      subst hx
      simp [Pi.single_apply]
    have := congrFun h0 0
    simp at this
  | _ :: _ :: _, _, h => exact h (by simp)

/-- The vertex cones, as the rest of the program needs them. -/
theorem volumeRows_cones {T : Tools} (hT : T.Ok) (l : List (Row (d + 1))) (hb : Bornology.IsBounded (Polyhedron (pairs l)))
    (hi : (interior (Polyhedron (pairs l))).Nonempty) :
    ∃ cones : List (GCone (d + 1)), TangentCones (d + 1) (cones.map toVCone) ∧ (∀ C ∈ cones, Regular.Spans C.rays) ∧
      polytope (d + 1) (cones.map toVCone) = Polyhedron (pairs l) ∧
      ∀ (T' : Tools) (o : VolumeOption) (draws : List ℕ), T'.vertices = T.vertices → volumeRows T' o draws (d + 1) l = computeVolume T' o draws d (cones.map toVCone) := by
  have h2 := two_vertices (hT.vertices (d + 1) (pairs l)) hb hi
  obtain ⟨cones, e1, e2, e3, e4⟩ := CddV.c88_cones (Nat.succ_pos d) (hT.vertices (d + 1) (pairs l)) hb h2
  have hne : cones ≠ [] := by
    rintro rfl
    have := congrArg List.length e2
    simp only [List.map_nil, List.length_nil, List.length_map] at this
    omega
  refine ⟨cones, tangentCones (pairs l) hb cones hne e3 fun C hC => (e4 C hC).2.2.1, fun C hC => spans_rays (pairs l) hi C.vertex C.rays (e4 C hC).2.2.1,
    polytope_eq (pairs l) hb cones e3, fun T' o draws hv => ?_⟩
  unfold volumeRows
  change (match (CddV.computeVertexCones (T'.vertices (d + 1) (pairs l)).1 (T'.vertices (d + 1) (pairs l)).2 : CddV.Outcome (d + 1)) with
    | .done (some k) => VolumeEnding.ended (.number k)
    | .done none => .ended .noNumber
    | .stop => .ended .stop
    | .undefined => .ended .undefined
    | .cones cones => computeVolume T' o draws d (cones.map toVCone)) = _
  rw [hv, e1]

/-- **Specification.** What is to be printed: two answers or, with `--cone-decompose`, one, all of them the volume. -/
def RightAnswers (o : VolumeOption) (A : Set (Fin n → ℝ)) (l : List ℚ) : Prop :=
  l.length = (match o with | .both => 2 | .coneDecompose => 1) ∧ ∀ v ∈ l, (v : ℝ) = (volume A).toReal

theorem computeVolume_right {T : Tools} (hT : ∀ d t, Regular.TriangulationOk (T.triangulate d t)) (o : VolumeOption) (draws : List ℕ) (cones : List (GCone (d + 1)))
    (h : TangentCones (d + 1) (cones.map toVCone)) (hs : ∀ C ∈ cones, Regular.Spans C.rays) (hi : (interior (polytope (d + 1) (cones.map toVCone))).Nonempty) :
    computeVolume T o draws d (cones.map toVCone) ≠ .differ ∧
      ∀ l, computeVolume T o draws d (cones.map toVCone) = .answers l → RightAnswers o (polytope (d + 1) (cones.map toVCone)) l := by
  have hc := byCones_right hT draws cones h hs
  have ht : ∀ v, byTriangulation T d (cones.map toVCone) = .ok v → (v : ℝ) = (volume (polytope (d + 1) (cones.map toVCone))).toReal := by
    intro v hv
    have hcalls : callsFail (d + 2) (T.triangulate (d + 1)) 0 [liftedCone (d + 1) (cones.map toVCone)] = none := by
      unfold byTriangulation at hv
      split at hv
      · cases hv
      · assumption
    obtain ⟨w, e, hw⟩ := byTriangulation_right hT cones hi hcalls
    rw [hv] at e
    cases e
    exact hw
  unfold computeVolume
  cases o with
  | both =>
    dsimp only
    cases e1 : byTriangulation T d (cones.map toVCone) with
    | error e => exact ⟨nofun, nofun⟩
    | ok v₁ =>
      cases e2 : byCones T draws d (cones.map toVCone) with
      | error e => exact ⟨nofun, nofun⟩
      | ok v₂ =>
        dsimp only
        have h1 := ht v₁ e1
        have h2 := hc v₂ e2
        have he : v₁ = v₂ := by
          have : (v₁ : ℝ) = (v₂ : ℝ) := h1.trans h2.symm
          exact_mod_cast this
        rw [if_neg (not_not.2 he)]
        refine ⟨nofun, fun l hl => ?_⟩
        cases hl
        refine ⟨rfl, fun v hv => ?_⟩
        rcases List.mem_cons.1 hv with rfl | hv
        · exact h1
        · rw [List.mem_singleton.1 hv]; exact h2
  | coneDecompose =>
    dsimp only
    cases e2 : byCones T draws d (cones.map toVCone) with
    | error e => exact ⟨nofun, nofun⟩
    | ok v₂ =>
      refine ⟨nofun, fun l hl => ?_⟩
      cases hl
      refine ⟨rfl, fun v hv => ?_⟩
      rw [List.mem_singleton.1 hv]; exact hc v₂ e2

theorem volumeRows_right {T : Tools} (hT : T.Ok) (o : VolumeOption) (draws : List ℕ) (l : List (Row (d + 1))) (hb : Bornology.IsBounded (Polyhedron (pairs l)))
    (hi : (interior (Polyhedron (pairs l))).Nonempty) :
    volumeRows T o draws (d + 1) l ≠ .differ ∧ ∀ as, volumeRows T o draws (d + 1) l = .answers as → RightAnswers o (Polyhedron (pairs l)) as := by
  obtain ⟨cones, h1, h2, h3, h4⟩ := volumeRows_cones hT l hb hi
  rw [h4 T o draws rfl, ← h3]
  exact computeVolume_right hT.triangulate o draws cones h1 h2 (by rw [h3]; exact hi)

/-! ## Files -/

/-- A polytope with interior points has no equations: the inequalities are those of the file. -/
theorem fileRows_full {T : Tools} (hT : T.Ok) (P : Empty.Problem n) (h : P.Ok) (hs : Small P) (h0 : P.rows ≠ []) (hf : P.nonnegFirst = false)
    (hi : (interior P.Solutions).Nonempty) : ∃ l : List (Row n), (∀ hermite, fileRows T hermite (text P) = .rows n l) ∧ Polyhedron (pairs l) = P.Solutions := by
  obtain ⟨h1, h2⟩ := Empty.c86_decides T.lp hT.lp P h (Or.inl h0) (by rw [hf]; simp)
  have hne : P.Solutions.Nonempty := hi.mono interior_subset
  have hc : Canonical n (matrix P) (T.canonicalize (matrix P)) := hT.canonicalize n (matrix P) rfl rfl (matrix_length P) (by rw [sols_matrix P h]; exact hne)
  have hcols : (T.canonicalize (matrix P)).colsize - 1 = n := by rw [hc.cols]; rfl
  have hint : ∀ r ∈ (T.canonicalize (matrix P)).rows, Integral r := fun r hr => matrix_integral P r (hc.rows r hr)
  have hsplit := split_canonical P h hc
  have he : ∀ hermite, fileRows T hermite (text P) = projectRows hermite n ((part (T.canonicalize (matrix P)) true).map (intRow n))
      ((part (T.canonicalize (matrix P)) false).map (intRow n)) := by
    intro hermite
    unfold fileRows
    rw [tokens_text P hf, h1 hne, read_text P h hs.rows hs.cols hs.nonneg]
    exact matrixRows_eq hcols hint
  generalize (part (T.canonicalize (matrix P)) true).map (intRow n) = E at *
  generalize (part (T.canonicalize (matrix P)) false).map (intRow n) = I at *
  have hE : E = [] := by
    by_contra hE
    obtain ⟨r, E', rfl⟩ := List.exists_cons_of_ne_nil hE
    have h3 := full_dot hi (fun k => (r.a k : ℝ)) (-(r.b : ℝ)) fun x hx => by
      rw [← hsplit.solutions, mem_both] at hx
      have := hx.1 r List.mem_cons_self
      unfold dot at this
      have e : ∑ k, x k * (r.a k : ℝ) = ∑ k, (r.a k : ℝ) * x k := Finset.sum_congr rfl fun k _ => mul_comm _ _
      rw [e]
      linarith
    have h4 := hsplit.independent.ne_zero ⟨0, by simp⟩
    exact h4 h3
  subst hE
  refine ⟨I, fun hermite => by rw [he]; unfold projectRows; rw [if_pos rfl], ?_⟩
  rw [← hsplit.solutions]
  ext x
  rw [mem_both]
  constructor
  · intro hx
    exact ⟨by simp, fun r hr => hx (r.b, r.a) (List.mem_map.2 ⟨r, hr, rfl⟩)⟩
  · rintro ⟨-, hx⟩ q hq
    obtain ⟨r, hr, rfl⟩ := List.mem_map.1 hq
    exact hx r hr

/-- **C93: the answers are right.** For every file that describes a polytope with interior points, with both options, whatever the triangulations and the random numbers are: all answers
printed are the volume of the polytope, and the two methods never disagree. -/
theorem c93_volume {T : Tools} (hT : T.Ok) (o : VolumeOption) (draws : List ℕ) (hermite : ℕ) (hn : 0 < n) (P : Empty.Problem n) (h : P.Ok) (hs : Small P)
    (h0 : P.rows ≠ []) (hf : P.nonnegFirst = false) (hb : Bornology.IsBounded P.Solutions) (hi : (interior P.Solutions).Nonempty) :
    volumeFile T o draws hermite (text P) ≠ .differ ∧
      ∀ answers, volumeFile T o draws hermite (text P) = .answers answers → RightAnswers o P.Solutions answers := by
  obtain ⟨d, rfl⟩ := Nat.exists_eq_succ_of_ne_zero hn.ne'
  obtain ⟨l, e, hl⟩ := fileRows_full hT P h hs h0 hf hi
  unfold volumeFile
  rw [e hermite, ← hl]
  exact volumeRows_right hT o draws l (by rw [hl]; exact hb) (by rw [hl]; exact hi)

/-! ## An answer is found -/

/-- **Specification.** In round `k` of the search for a vector (each round draws `n` numbers, taken modulo 10000) the vector drawn is not orthogonal to any of the vectors in `R`. -/
def GenericRound (R : List (Vec n)) (draws : List ℕ) (k : ℕ) : Prop :=
  n * (k + 1) ≤ draws.length ∧ ∀ r ∈ R, ∑ j : Fin n, r j * ((draws.getD (n * k + j) 0 % 10000 : ℕ) : ℤ) ≠ 0

theorem calls_total {T : Tools} (htri : TriangulationTotal T) (cs : List VCone) (hs : ∀ c ∈ cs, Regular.Spans (c.rays.map (ofList (d + 1)))) :
    callsFail (d + 1) (T.triangulate d) 0 cs = none := by
  rw [callsFail_none]
  intro j c hc
  exact (htri d (0 + j) _ (hs c (List.mem_of_getElem? hc)) 0)

/-- The cone method finds an answer in a generic round. -/
theorem volume_ends_generic (T : ℕ → VCone → List VCone) (hn : 0 < n) (cones : List VCone) (h : TangentCones n cones) (hT : TriangulatesCones T n cones) :
    ∃ R : List (Vec n), (∀ r ∈ R, r ≠ 0) ∧ ∀ (k : ℕ) (draws : List ℕ), GenericRound R draws k → findVolume T .cone draws (ofCones n cones) ≠ none := by
  have hall := allOk T n cones h.tc (by
    intro i c hc
    have hm := List.mem_of_getElem? hc
    have := hT i c hc c.vertex (h.vertex c hm) ⟨1, one_pos, by simp⟩
    exact this)
  set cs := triangulateLoop T 0 cones [] with hcs
  refine ⟨(cs.flatMap (·.rays)).map (ofList n), ?_, fun k draws hg => ?_⟩
  · intro r hr
    obtain ⟨q, hq, rfl⟩ := List.mem_map.1 hr
    obtain ⟨c, hc, hq⟩ := List.mem_flatMap.1 hq
    obtain ⟨i, hi⟩ := Latte.Lawrence.ray_nonzero n c.rays (hall.size c hc) (hall.indep c hc) q hq
    intro h0
    exact hi (congrFun h0 i)
  · obtain ⟨hlen, hg⟩ := hg
    have hsplit : draws = draws.take (n * k) ++ (draws.drop (n * k)).take n ++ (draws.drop (n * k)).drop n := by
      rw [List.append_assoc, List.take_append_drop, List.take_append_drop]
    set blk := (draws.drop (n * k)).take n with hblk
    have hb : blk.length = n := by
      rw [hblk, List.length_take, List.length_drop]
      rw [Nat.mul_succ] at hlen
      omega
    have hpre : (draws.take (n * k)).length = n * k := by
      rw [List.length_take]
      rw [Nat.mul_succ] at hlen
      omega
    have hs : lawVolSearch n cs (draws.length + 1) draws ≠ none := by
      conv => enter [1, 4]; rw [hsplit]
      refine lawVolSearch_some n cs blk hb ?_ k _ _ _ hpre ?_
      · apply lawVolLoop_some
        intro q hq
        obtain ⟨c, hc, e⟩ := hall.vertex q hq
        refine ⟨by rw [e]; exact (scale_spec n _ (h.vertex c hc)).1.ne', ?_⟩
        intro r hr
        have hmem : ofList n r ∈ (cs.flatMap (·.rays)).map (ofList n) := List.mem_map_of_mem (List.mem_flatMap.2 ⟨q, hq, hr⟩)
        have h1 := hg _ hmem
        have hr' := hall.len q hq r hr
        intro h0
        apply h1
        rw [← h0]
        unfold dotZ
        have : List.zipWith (· * ·) (blk.map fun r => ((r % 10000 : ℕ) : ℤ)) r =
            List.ofFn fun j : Fin n => ((blk.getD j 0 % 10000 : ℕ) : ℤ) * r.getD j 0 := by
          apply List.ext_getElem (by simp [hb, hr'])
          intro i h1 h2
          have hi : i < n := by simpa using h2
          simp only [List.getElem_zipWith, List.getElem_map, List.getElem_ofFn]
          rw [List.getD_eq_getElem _ _ (by omega), List.getD_eq_getElem _ _ (by omega)]
        rw [this, List.sum_ofFn]
        refine Finset.sum_congr rfl fun j _ => ?_
        have hj : blk.getD j 0 = draws.getD (n * k + j) 0 := by
          rw [hblk]
          simp only [List.getD_eq_getElem?_getD, List.getElem?_take, List.getElem?_drop]
          rw [if_pos j.2]
        rw [hj, mul_comm]
        rfl
      · have : k ≤ (draws.take (n * k)).length := by rw [hpre]; nlinarith
        rw [List.length_take] at this
        omega
    unfold findVolume
    simp only
    rw [triangulateVertexRays_eq T _ cones rfl rfl hall.ne]
    obtain ⟨a, ha⟩ := Option.ne_none_iff_exists'.1 hs
    unfold volumeLawrence
    simp only [Option.getD_some]
    rw [show (ofCones n cones).numOfVars = n from rfl, ← hcs, ha]
    simp

theorem volumeRows_total {T : Tools} (hT : T.Ok) (htri : TriangulationTotal T) (l : List (Row (d + 1))) (hb : Bornology.IsBounded (Polyhedron (pairs l)))
    (hi : (interior (Polyhedron (pairs l))).Nonempty) :
    ∃ R : List (Vec (d + 1)), (∀ r ∈ R, r ≠ 0) ∧ ∀ (o : VolumeOption) (draws : List ℕ) (k : ℕ), GenericRound R draws k → ∃ as, volumeRows T o draws (d + 1) l = .answers as := by
  have hright := fun o draws => volumeRows_right hT o draws l hb hi
  obtain ⟨cones, h1, h2, h3, h4⟩ := volumeRows_cones hT l hb hi
  have hc1 : callsFail (d + 1) (T.triangulate d) 0 (cones.map toVCone) = none := calls_total htri _ fun c hc => by
    obtain ⟨C, hC, rfl⟩ := List.mem_map.1 hc
    rw [show (toVCone C).rays.map (ofList (d + 1)) = C.rays from ofList_map_toList C.rays]
    exact h2 C hC
  have hc2 : callsFail (d + 2) (T.triangulate (d + 1)) 0 [liftedCone (d + 1) (cones.map toVCone)] = none := calls_total htri _ fun c hc => by
    rw [List.mem_singleton.1 hc]
    exact spans_lifted cones (by rw [h3]; exact hi)
  obtain ⟨v₁, e1, -⟩ := byTriangulation_right hT.triangulate cones (by rw [h3]; exact hi) hc2
  obtain ⟨R, hR, hgen⟩ := volume_ends_generic (engine (d + 1) (T.triangulate d)) (Nat.succ_pos d) (cones.map toVCone) h1 (engine_cones _ (hT.triangulate d) cones h2 hc1)
  refine ⟨R, hR, fun o draws k hk => ?_⟩
  obtain ⟨⟨v₂, p'⟩, e2⟩ := Option.ne_none_iff_exists'.1 (hgen k draws hk)
  have e2' : byCones T draws d (cones.map toVCone) = .ok v₂ := by
    unfold byCones
    rw [hc1]
    dsimp only
    rw [e2]
  obtain ⟨hd, -⟩ := hright o draws
  rw [h4 T o draws rfl] at hd ⊢
  unfold computeVolume at hd ⊢
  cases o with
  | both =>
    rw [e1, e2'] at hd ⊢
    dsimp only at hd ⊢
    by_cases hv : v₁ ≠ v₂
    · rw [if_pos hv] at hd
      exact absurd rfl hd
    · rw [if_neg hv]
      exact ⟨_, rfl⟩
  | coneDecompose =>
    rw [e2']
    exact ⟨_, rfl⟩

/-- **C93: answers are found.** If the triangulations go through, there are finitely many nonzero vectors such that the program prints answers as soon as some round of the search for a
vector draws one that is not orthogonal to any of them. -/
theorem c93_total {T : Tools} (hT : T.Ok) (htri : TriangulationTotal T) (hn : 0 < n) (P : Empty.Problem n) (h : P.Ok) (hs : Small P)
    (h0 : P.rows ≠ []) (hf : P.nonnegFirst = false) (hb : Bornology.IsBounded P.Solutions) (hi : (interior P.Solutions).Nonempty) :
    ∃ R : List (Vec n), (∀ r ∈ R, r ≠ 0) ∧ ∀ (o : VolumeOption) (draws : List ℕ) (hermite k : ℕ), GenericRound R draws k →
      ∃ answers, volumeFile T o draws hermite (text P) = .answers answers ∧ RightAnswers o P.Solutions answers := by
  have hright := fun o draws hermite => c93_volume hT o draws hermite hn P h hs h0 hf hb hi
  obtain ⟨d, rfl⟩ := Nat.exists_eq_succ_of_ne_zero hn.ne'
  obtain ⟨l, e, hl⟩ := fileRows_full hT P h hs h0 hf hi
  rw [← hl] at hb hi
  obtain ⟨R, hR, hgen⟩ := volumeRows_total hT htri l hb hi
  refine ⟨R, hR, fun o draws hermite k hk => ?_⟩
  obtain ⟨as, has⟩ := hgen o draws k hk
  have e' : volumeFile T o draws hermite (text P) = .answers as := by
    unfold volumeFile
    rw [e hermite]
    exact has
  exact ⟨as, e', (hright o draws hermite).2 as e'⟩

/-- Such rounds exist if there are fewer than 10000 vectors. -/
theorem c93_generic_exists (R : List (Vec n)) (hR : ∀ r ∈ R, r ≠ 0) (hlen : R.length < 10000) : ∃ draws : List ℕ, draws.length = n ∧ (∀ x ∈ draws, x < 10000) ∧ GenericRound R draws 0 := by
  obtain ⟨good, g1, g2, g3⟩ := exists_avoiding n (R.map toList) (by
    intro r hr
    obtain ⟨q, hq, rfl⟩ := List.mem_map.1 hr
    refine ⟨toList_length q, ?_⟩
    obtain ⟨i, hi⟩ := Function.ne_iff.1 (hR q hq)
    exact ⟨q i, by simp [toList], hi⟩) (by simpa using hlen)
  refine ⟨good, g1, g2, by simp [g1], fun r hr => ?_⟩
  have h1 := g3 (toList r) (List.mem_map_of_mem hr)
  intro h0
  apply h1
  rw [← h0]
  have key : ∀ N : ℕ, (∀ x ∈ good, x < N) → dotZ (good.map (fun x : ℕ => (x : ℤ))) (toList r) = ∑ j : Fin n, r j * ((good.getD (n * 0 + j) 0 % N : ℕ) : ℤ) := by
    intro N hN
    subst g1
    rw [← List.sum_ofFn]
    unfold dotZ toList
    congr 1
    apply List.ext_getElem
    · simp
    · intro i h1 h2
      have hi : i < good.length := by simpa using h2
      rw [List.getElem_zipWith, List.getElem_map, List.getElem_ofFn, List.getElem_ofFn, mul_comm]
      dsimp only
      simp only [Nat.mul_zero, Nat.zero_add]
      rw [List.getD_eq_getElem _ _ hi, Nat.mod_eq_of_lt (hN _ (List.getElem_mem hi))]
  exact key 10000 g2

end Verif.Whole
