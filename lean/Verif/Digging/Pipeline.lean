import Verif.Digging.Solve
import Verif.Digging.Signs
import Verif.Brion.Ehrhart

/-!
# `latte-maximize` and `latte-minimize` from the vertex cones to the printed optimum

`code/latte/maximize.cpp` 265–270, 346–360, 411–545 and the same lines of `minimize.cpp`, without equations (see `Verif/Digging/Equations.lean` for those).
-/

namespace Verif.Digging

open Verif.Barvinok
open Verif.Barvinok.Spec
open Verif.ExpSubst
open Verif.PolySubst
open Verif.Brion

variable {m n : ℕ}

/-! ## Model -/

/-- What is printed: `Integrally empty polytope`, or a solution, the value and (if the cost was not perturbed) the number of optimal solutions. -/
inductive Report (n : ℕ) where
  | empty
  | optimum (x : Vec n) (value : ℤ) (number : Option ℤ)

/-- The unimodular cones with their lattice points, maximize.cpp:411–442 (`decompose`, no memory saving, dual decomposition). -/
def conesFor (N : Ntl (m + 1)) (X : Smith.Xgcd) (irr : Cone (m + 1) → Fin (m + 1) → ℚ) (pfuel : ℕ)
    (cones : List ((Fin (m + 1) → ℚ) × List (Mat (m + 1)))) : Except Fail (List (OffCone (m + 1))) := do
  let D ← decomposeCones N .dual irr 1 cones
  computePoints X pfuel D

/-- `SolveIP` and the printed results, maximize.cpp:474–486, 515–527.  `cost` is the cost after the change of sign of minimization; the value is that of the
original cost. -/
def report (H : Hashing) (P : List (OffCone n)) (matrix : List (ℤ × Vec n)) (mini single : Bool) (cost : Vec n) (tries : ℕ) (draws : ℕ → List (ℕ × ℕ))
    (innerFuel fuel : ℕ) : Except (Fail ⊕ Stop) (Report n) :=
  match solveIP H P matrix cost single tries draws innerFuel fuel with
  | .error s => .error (.inr s)
  | .ok (a, count) => .ok (.optimum a.point (inner (if mini then -cost else cost) a.point) (if count = 0 then some a.number else none))

/-- The whole run (`mini`: minimization; `single`: option `single`, with the cones restricted to the vertex found by linear programming, see
`singleCone`). -/
def optimize (N : Ntl (m + 1)) (X : Smith.Xgcd) (irr : Cone (m + 1) → Fin (m + 1) → ℚ) (pfuel : ℕ)
    (cones : List ((Fin (m + 1) → ℚ) × List (Mat (m + 1)))) (matrix : List (ℤ × Vec (m + 1))) (mini single : Bool) (cost : Vec (m + 1))
    (tries : ℕ) (guesses : ℕ → Vec (m + 1)) (H : Hashing) (ptries : ℕ) (draws : ℕ → List (ℕ × ℕ)) (innerFuel fuel : ℕ) :
    Except (Fail ⊕ Stop) (Report (m + 1)) :=
  let cost := if mini then -cost else cost
  match conesFor N X irr pfuel cones with
  | .error e => .error (.inl e)
  | .ok P =>
    if single then report H P matrix mini single cost ptries draws innerFuel fuel
    else
      match residue P tries guesses with
      | .error e => .error (.inl e)
      | .ok r => if r = 0 then .ok .empty else report H P matrix mini single cost ptries draws innerFuel fuel

/-- `CopyListCones` with a vertex, vertices/cdd.cpp:60–90 (simplification: equality of rational vectors). -/
def singleCone (v : Fin (m + 1) → ℚ) (cones : List ((Fin (m + 1) → ℚ) × List (Mat (m + 1)))) : List ((Fin (m + 1) → ℚ) × List (Mat (m + 1))) :=
  cones.filter fun c => c.1 = v

/-! ## The cones represent the polytope -/

theorem feasible_iff (matrix : List (ℤ × Vec n)) (z : Vec n) :
    feasible matrix z = true ↔ ∀ i, ∑ k, (normals matrix i k : ℚ) * (z k : ℚ) ≤ sides matrix i := by
  unfold feasible
  rw [List.all_eq_true]
  have key : ∀ row : ℤ × Vec n, decide (0 ≤ row.1 + inner row.2 z) = true ↔ ∑ k, ((-row.2 k : ℤ) : ℚ) * (z k : ℚ) ≤ (row.1 : ℚ) := by
    intro row
    rw [decide_eq_true_iff]
    have e : ∑ k, ((-row.2 k : ℤ) : ℚ) * (z k : ℚ) = ((-(inner row.2 z) : ℤ) : ℚ) := by
      unfold ExpSubst.inner
      push_cast
      rw [← Finset.sum_neg_distrib]
      exact Finset.sum_congr rfl fun k _ => by ring
    rw [e, Int.cast_le]
    omega
  constructor
  · intro h i
    exact (key _).1 (h _ (List.get_mem _ i))
  · intro h row hrow
    obtain ⟨i, rfl⟩ := List.get_of_mem hrow
    exact (key _).2 (h i)

/-- The cones delivered add up to what the inputs add up to. -/
theorem delivered_total (N : Ntl (m + 1)) (hN : N.Ok) (X : Smith.Xgcd) (v : Variant) (irr : Cone (m + 1) → Fin (m + 1) → ℚ)
    (hirr : v = .irrationalPrimal → IrrOk irr) (maxDet : ℤ) (h0 : maxDet ≠ 0) (hmax : maxDet ≤ Piped.intMax)
    (cones : List ((Fin (m + 1) → ℚ) × List (Mat (m + 1)))) (D : List (Cone (m + 1)))
    (hD : delivered N v irr maxDet cones = some D) (χ : Vec (m + 1) → ℚ) (g : Vec (m + 1) → ℚ) (hg : g ∈ negligible (m + 1))
    (hind : ∀ z, (((cones.map fun c => (c.2.map fun B => inputInd v c.1 B z).sum).sum : ℤ) : ℚ) = χ z + g z) :
    ∃ g' ∈ negligible (m + 1), ∀ z, (((D.map fun C => C.coefficient * ind (cone C.rays) (rel z C.vertex)).sum : ℤ) : ℚ) = χ z + g' z := by
  have hfuel : maxDet < ((maxDet.toNat + 1 : ℕ) : ℤ) := by omega
  have hready := delivered_ready N hN v irr maxDet h0 hmax _ hfuel cones D hD
  obtain ⟨lam, hlam⟩ := c42_generic_exists _ D hready
  unfold delivered at hD
  split at hD
  · rename_i out md hrun
    cases hD
    obtain ⟨new, e, a1, -⟩ := list_follows N v.mode maxDet (fun C => acceptExp X lam (maxDet.toNat + 1) C) v irr cones [] 0 _ _ hrun
    rw [List.nil_append] at e
    subst e
    have hrun' := a1 fun C hC => (accept_iff X lam _ C (hready C hC)).2 (hlam C hC)
    obtain ⟨new, e, hgood⟩ := decompositionList_good N hN X v irr hirr maxDet h0 hmax _ hfuel lam cones [] 0 hrun'
    rw [List.nil_append] at e
    subst e
    refine ⟨_, Submodule.add_mem _ hg hgood.sum, fun z => ?_⟩
    have := hind z
    push_cast at this ⊢
    simp only [Pi.add_apply]
    linarith
  · cases hD

theorem decomposeCones_delivered {N : Ntl (m + 1)} {v : Variant} {irr : Cone (m + 1) → Fin (m + 1) → ℚ} {maxDet : ℤ}
    {cones : List ((Fin (m + 1) → ℚ) × List (Mat (m + 1)))} {L : List (Cone (m + 1))} (h : decomposeCones N v irr maxDet cones = .ok L) :
    ∃ D, delivered N v irr maxDet cones = some D ∧ L = D.reverse := by
  unfold decomposeCones at h
  unfold delivered
  split at h
  · rename_i out md hrun
    cases h
    exact ⟨out, by rw [hrun], rfl⟩
  · cases h
  · cases h
  · cases h

/-- **The cones of the program.** They represent every set whose indicator the inputs add up to. -/
theorem conesFor_represents (N : Ntl (m + 1)) (hN : N.Ok) (X : Smith.Xgcd) (irr : Cone (m + 1) → Fin (m + 1) → ℚ) (pfuel : ℕ) (hfuel : 1 < pfuel)
    (cones : List ((Fin (m + 1) → ℚ) × List (Mat (m + 1)))) (P : List (OffCone (m + 1))) (hP : conesFor N X irr pfuel cones = .ok P)
    (A : Set (Vec (m + 1))) (g : Vec (m + 1) → ℚ) (hg : g ∈ negligible (m + 1))
    (hind : ∀ z, (((cones.map fun c => (c.2.map fun B => inputInd .dual c.1 B z).sum).sum : ℤ) : ℚ) = A.indicator 1 z + g z) :
    Represents P A ∧ ∃ D, delivered N .dual irr 1 cones = some D ∧ (∀ cost, Generic P cost ↔ GenericFor cost D) ∧ P.length = D.length := by
  unfold conesFor at hP
  cases hdec : decomposeCones N .dual irr 1 cones with
  | error e => rw [hdec] at hP; cases hP
  | ok L =>
    rw [hdec] at hP
    obtain ⟨D, hD, rfl⟩ := decomposeCones_delivered hdec
    have hready := delivered_ready N hN .dual irr 1 one_ne_zero (by decide) pfuel (by exact_mod_cast hfuel) cones D hD
    obtain ⟨pt, h1, h2⟩ := computePoints_ok X pfuel D.reverse (fun C hC => hready C (List.mem_reverse.1 hC))
      (fun C hC => delivered_unimodular N hN .dual irr cones D hD C (List.mem_reverse.1 hC))
    change computePoints X pfuel D.reverse = .ok P at hP
    rw [h1] at hP
    cases hP
    obtain ⟨g', hg', hind'⟩ := delivered_total N hN X .dual irr (by intro h; cases h) 1 one_ne_zero (by decide) cones D hD (A.indicator 1) g hg hind
    have hsign := delivered_sign N .dual irr 1 cones D hD
    refine ⟨⟨?_, ?_, ?_, ?_⟩, D, hD, ?_, by simp⟩
    · intro C hC
      obtain ⟨E, -, rfl⟩ := List.mem_map.1 hC
      exact ⟨pt E, rfl⟩
    · intro C hC
      obtain ⟨E, -, rfl⟩ := List.mem_map.1 hC
      show (List.ofFn fun i => E.rays i) ≠ []
      intro h
      have := congrArg List.length h
      simp at this
    · intro C hC
      obtain ⟨E, hE, rfl⟩ := List.mem_map.1 hC
      exact hsign E (List.mem_reverse.1 hE)
    · refine ⟨D.reverse.map fun C => (⟨C.coefficient, [pt C], List.ofFn fun i => C.rays i⟩, coneInd C.rays C.vertex), ?_, ?_, g', negligible_killed hg', ?_⟩
      · rw [List.map_map]; rfl
      · intro b hb
        obtain ⟨C, hC, rfl⟩ := List.mem_map.1 hb
        exact h2 C hC
      · intro z
        rw [← hind' z, Int.cast_list_sum, List.map_map, List.map_map, List.map_reverse, List.sum_reverse]
        congr 1
        refine List.map_congr_left fun C _ => ?_
        simp only [Function.comp, coneInd]
        push_cast
        rfl
    · intro cost
      unfold Generic GenericFor
      constructor
      · intro h C hC i
        exact h ⟨C.coefficient, [pt C], List.ofFn fun i => C.rays i⟩ (List.mem_map.2 ⟨C, List.mem_reverse.2 hC, rfl⟩) (C.rays i) (List.mem_ofFn.2 ⟨i, rfl⟩)
      · intro h C hC r hr
        obtain ⟨E, hE, rfl⟩ := List.mem_map.1 hC
        obtain ⟨i, rfl⟩ := List.mem_ofFn.1 hr
        exact h E (List.mem_reverse.1 hE) i

/-- The cones of all vertices represent the lattice points of the polytope. -/
theorem polytope_represents (N : Ntl (m + 1)) (hN : N.Ok) (X : Smith.Xgcd) (irr : Cone (m + 1) → Fin (m + 1) → ℚ) (pfuel : ℕ) (hfuel : 1 < pfuel)
    (matrix : List (ℤ × Vec (m + 1))) (S : List (Vec (m + 1))) (hS : LatticePoints (normals matrix) (sides matrix) S)
    (cones : List ((Fin (m + 1) → ℚ) × List (Mat (m + 1)))) (hvs : IsVertexList (normals matrix) (sides matrix) (cones.map (·.1)))
    (hT : ∀ c ∈ cones, Triangulation c.2 (normal (normals matrix) (sides matrix) c.1))
    (P : List (OffCone (m + 1))) (hP : conesFor N X irr pfuel cones = .ok P) :
    Represents P {z | z ∈ S} ∧ ∃ D, delivered N .dual irr 1 cones = some D ∧ (∀ cost, Generic P cost ↔ GenericFor cost D) ∧ P.length = D.length := by
  obtain ⟨g, hg, hind⟩ := dual_indicators _ _ cones hvs hT S hS .dual (by decide)
  refine conesFor_represents N hN X irr pfuel hfuel cones P hP _ g hg fun z => ?_
  rw [hind z, Set.indicator_apply]
  rfl

/-! ## Specification and theorems -/

/-- **Specification.** `x` is an optimal point of `S`. -/
def IsOptimal (mini : Bool) (cost : Vec n) (S : List (Vec n)) (x : Vec n) : Prop :=
  x ∈ S ∧ ∀ y ∈ S, if mini then inner cost x ≤ inner cost y else inner cost y ≤ inner cost x

theorem inner_neg_left (a x : Vec n) : inner (-a) x = -inner a x := by
  rw [inner_comm, inner_neg, inner_comm]

theorem inner_flip (mini : Bool) (cost x : Vec n) : inner (if mini then -(if mini then -cost else cost) else (if mini then -cost else cost)) x = inner cost x := by
  cases mini
  · rfl
  · simp

/-- A run with all vertices, from the cones on. -/
theorem report_all {P : List (OffCone n)} {S : List (Vec n)} (hrep : Represents P {z | z ∈ S}) (hne : P ≠ []) (matrix : List (ℤ × Vec n))
    (hS : ∀ z, feasible matrix z = true ↔ z ∈ S) (mini : Bool) (cost : Vec n) (H : Hashing) (tries : ℕ) (draws : ℕ → List (ℕ × ℕ)) (innerFuel fuel : ℕ)
    (r : Report n) (h : report H P matrix mini false cost tries draws innerFuel fuel = .ok r) :
    ∃ x k i cost', r = .optimum x (inner (if mini then -cost else cost) x) (if i = 0 then some k else none) ∧ Used P cost draws i cost' ∧
      x ∈ S ∧ (∀ y ∈ S, inner cost' y ≤ inner cost' x) ∧ k = ({z | z ∈ S ∧ inner cost' z = inner cost' x}.ncard : ℤ) := by
  have hfin : {z | z ∈ S}.Finite := List.finite_toSet S
  unfold report at h
  rcases solveIP_spec hrep hne H matrix false (fun z hz => (hS z).1 hz) (fun _ z hz => (hS z).2 hz) cost tries draws
    (fun cost' _ _ => descending_finite hfin cost') innerFuel fuel with ⟨a, i, cost', e, hu, hs⟩ | ⟨i, cost', e, -⟩ | ⟨e, -⟩ | e
  · rw [e] at h
    cases h
    exact ⟨a.point, a.number, i, cost', rfl, hu, (hS _).1 hs.feasible, fun y hy => hs.maximal y ((hS y).2 hy), hs.number⟩
  · rw [e] at h; cases h
  · rw [e] at h; cases h
  · rw [e] at h; cases h

theorem count_filter (S : List (Vec n)) (hS : S.Nodup) (p : Vec n → Prop) [DecidablePred p] : {z | z ∈ S ∧ p z}.ncard = (S.filter fun z => p z).length := by
  have : {z | z ∈ S ∧ p z} = (((S.filter fun z => p z).toFinset : Finset (Vec n)) : Set (Vec n)) := by
    ext z
    simp
  rw [this, Set.ncard_coe_finset, List.toFinset_card_of_nodup (hS.filter _)]

end Verif.Digging
