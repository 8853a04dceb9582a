import Verif.Brion.Size
import Verif.Digging.Check
import Verif.Digging.Single
import Verif.Brion.Example

/-!
# C79: examples and violations
-/

namespace Verif.Digging

open Verif.Barvinok (Vec)
open Verif.ExpSubst
open Verif.PolySubst (OffCone)

/-! ## The cost is reversed by a perturbation

The tetrahedron with corners 0, -(1,1,0), -(1,0,1), -(0,1,1); each vertex cone is a signed sum of four unimodular cones.  The cost (1,0,0) is orthogonal to some rays. -/

def tetraCones : List C3 := [
  ⟨-1, (-1, -1, 0), [(1, 1, 0), (0, -1, 1), (0, 0, -1)]⟩, ⟨1, (-1, -1, 0), [(1, 1, 0), (0, 0, -1), (0, -1, -1)]⟩,
  ⟨1, (-1, -1, 0), [(0, 1, 1), (0, 0, -1), (1, 0, -1)]⟩, ⟨1, (-1, -1, 0), [(0, 0, 1), (0, 1, -1), (1, 0, -1)]⟩,
  ⟨1, (-1, 0, -1), [(1, 0, 1), (0, -1, 1), (0, 0, -1)]⟩, ⟨1, (-1, 0, -1), [(1, 0, 1), (0, 0, 1), (0, -1, -1)]⟩,
  ⟨1, (-1, 0, -1), [(0, 1, 1), (0, 0, 1), (1, -1, 0)]⟩, ⟨-1, (-1, 0, -1), [(0, 0, 1), (0, 1, -1), (1, -1, 0)]⟩,
  ⟨1, (0, -1, -1), [(0, 1, 1), (-1, 0, 1), (0, 0, -1)]⟩, ⟨1, (0, -1, -1), [(0, 1, 1), (0, 0, 1), (-1, 0, -1)]⟩,
  ⟨1, (0, -1, -1), [(1, 0, 1), (0, 0, 1), (-1, 1, 0)]⟩, ⟨-1, (0, -1, -1), [(0, 0, 1), (1, 0, -1), (-1, 1, 0)]⟩,
  ⟨-1, (0, 0, 0), [(-1, -1, 0), (1, 0, 1), (0, 0, -1)]⟩, ⟨-1, (0, 0, 0), [(0, 0, 1), (1, 0, 1), (-1, -1, -2)]⟩,
  ⟨1, (0, 0, 0), [(-1, -1, 0), (0, 0, -1), (0, -1, -1)]⟩, ⟨1, (0, 0, 0), [(0, 0, 1), (-1, -1, -2), (0, -1, -1)]⟩]

def tetraPoints : List (ℤ × ℤ × ℤ) := [(0, 0, 0), (-1, -1, 0), (-1, 0, -1), (0, -1, -1)]

def tetraRays : List (ℤ × ℤ × ℤ) := [(0, 0, -1), (0, -1, 1), (0, -1, -1), (-1, 1, 0), (-1, 0, 1), (-1, 0, -1), (-1, -1, 0), (-1, -1, -2)]

def tetraRows : List (ℤ × Vec 3) := [(0, ![-1, -1, 1]), (0, ![-1, 1, -1]), (0, ![1, -1, -1]), (2, ![1, 1, 1])]

theorem tetra_check : check3 (17, 5, 1) tetraRays tetraCones tetraPoints = true := by decide +kernel

/-- A hash table (the real one has 1247677 places). -/
def table : Hashing := ⟨1000, by norm_num, fun v => (v.foldl (fun a x => 31 * a + x) 7) % 1000, fun _ => Nat.mod_lt _ (by norm_num)⟩

/-- The essential parts of a result. -/
def shown (r : Except Stop (Answer 3 × ℕ)) : Option ((ℤ × ℤ × ℤ) × ℕ) :=
  match r with
  | .ok (a, i) => some ((a.point 0, a.point 1, a.point 2), i)
  | .error _ => none

def tetraDraws : ℕ → List (ℕ × ℕ) := fun _ => [(1, 1), (3, 1), (9, 1)]

theorem tetra_run : shown (solveIP table (tetraCones.map C3.cone) tetraRows ![1, 0, 0] false 5 tetraDraws 100 100) = some ((-1, -1, 0), 1) := by decide +kernel

theorem tetra_feasible (z : Vec 3) : feasible tetraRows z = true ↔ z ∈ tetraPoints.map vec3 := by
  have h1 : feasible tetraRows z = true ↔ (0 ≤ -z 0 - z 1 + z 2 ∧ 0 ≤ -z 0 + z 1 - z 2 ∧ 0 ≤ z 0 - z 1 - z 2 ∧ 0 ≤ 2 + z 0 + z 1 + z 2) := by
    unfold feasible tetraRows
    rw [List.all_eq_true]
    simp only [List.mem_cons, List.not_mem_nil, or_false, forall_eq_or_imp, forall_eq, decide_eq_true_eq, ExpSubst.inner, Fin.sum_univ_three]
    simp
    omega
  rw [h1]
  have hz : z = ![z 0, z 1, z 2] := by funext i; fin_cases i <;> rfl
  constructor
  · rintro ⟨a, b, c, d⟩
    have e0 : z 0 ≤ 0 := by omega
    have e1 : z 1 ≤ 0 := by omega
    have e2 : z 2 ≤ 0 := by omega
    have f0 : -2 ≤ z 0 := by omega
    have f1 : -2 ≤ z 1 := by omega
    have f2 : -2 ≤ z 2 := by omega
    rw [hz]
    generalize z 0 = x0 at *
    generalize z 1 = x1 at *
    generalize z 2 = x2 at *
    interval_cases x0 <;> interval_cases x1 <;> interval_cases x2 <;> first | omega | decide
  · intro h
    simp only [tetraPoints, List.map_cons, List.map_nil, List.mem_cons, List.not_mem_nil, or_false, vec3] at h
    rcases h with rfl | rfl | rfl | rfl <;> decide

/-- **C79, violated.** Sixteen unimodular cones that represent the four lattice points of the tetrahedron; the cost (1,0,0) is orthogonal to some of their rays and
is perturbed once; `SolveIP` returns a point where the cost is -1, the least value instead of the greatest one, which is 0. -/
theorem c79_reversed_example :
    Represents (tetraCones.map C3.cone) {z | z ∈ tetraPoints.map vec3} ∧ (∀ z, feasible tetraRows z = true ↔ z ∈ tetraPoints.map vec3) ∧
    ∃ a, solveIP table (tetraCones.map C3.cone) tetraRows ![1, 0, 0] false 5 tetraDraws 100 100 = .ok (a, 1) ∧
      a.point ∈ tetraPoints.map vec3 ∧ inner ![1, 0, 0] a.point = -1 ∧ (∀ z ∈ tetraPoints.map vec3, -1 ≤ inner ![1, 0, 0] z) ∧
      ∃ z ∈ tetraPoints.map vec3, inner ![1, 0, 0] z = 0 := by
  refine ⟨represents_of_check _ _ _ _ tetra_check, tetra_feasible, ?_⟩
  have h := tetra_run
  unfold shown at h
  generalize solveIP table (tetraCones.map C3.cone) tetraRows ![1, 0, 0] false 5 tetraDraws 100 100 = r at h ⊢
  split at h
  · rename_i a i
    simp only [Option.some.injEq, Prod.mk.injEq] at h
    obtain ⟨⟨h0, h1, h2⟩, rfl⟩ := h
    have hp : a.point = ![-1, -1, 0] := by
      funext k; fin_cases k
      · exact h0
      · exact h1
      · exact h2
    refine ⟨a, rfl, ?_, ?_, by decide, by decide⟩
    · rw [hp]; decide
    · rw [hp]; decide
  · cases h

/-! ## Option `single`: a wrong number

`x ≤ 1/2`, `y ≤ 1/2`, `4 y - x ≥ 1`, `x ≥ -3`; the cost (1,1) has its maximum over the polygon at (1/2, 1/2), where the tangent cone contains the lattice points with
`x, y ≤ 0`. -/

def quadRows : List (ℤ × Vec 2) := [(1, ![-2, 0]), (1, ![0, -2]), (-1, ![-1, 4]), (3, ![1, 0])]

def quadCone : OffCone 2 := ⟨1, [![0, 0]], [![-1, 0], ![0, -1]]⟩

theorem quad_vertex : LPOptimal quadRows ![1, 1] ![1 / 2, 1 / 2] := by
  intro x hx
  have h1 := hx (1, ![-2, 0]) (by simp [quadRows])
  have h2 := hx (1, ![0, -2]) (by simp [quadRows])
  simp only [Fin.sum_univ_two] at h1 h2 ⊢
  simp at h1 h2 ⊢
  linarith

theorem quad_tight (z : Vec 2) : z ∈ latticeOf (tight quadRows ![1 / 2, 1 / 2]) ↔ z 0 ≤ 0 ∧ z 1 ≤ 0 := by
  have h : tight quadRows ![1 / 2, 1 / 2] = [(1, ![-2, 0]), (1, ![0, -2])] := by
    unfold tight quadRows
    simp [List.filter, Fin.sum_univ_two]
    norm_num
  rw [h]
  show (∀ row ∈ _, _) ↔ _
  simp only [List.mem_cons, List.not_mem_nil, or_false, forall_eq_or_imp, forall_eq, ExpSubst.inner, Fin.sum_univ_two]
  simp
  omega

theorem quad_represents : Represents [quadCone] (latticeOf (tight quadRows ![1 / 2, 1 / 2])) := by
  classical
  have hmult : ∀ z : Vec 2, mult [![-1, 0], ![0, -1]] z = (latticeOf (tight quadRows ![1 / 2, 1 / 2])).indicator (1 : Vec 2 → ℚ) z := by
    intro z
    have hlin : ∀ x y : ℕ, lincomb [x, y] [![-1, 0], ![0, -1]] = (![-(x : ℤ), -(y : ℤ)] : Vec 2) := by
      intro x y
      unfold lincomb
      funext k
      fin_cases k <;> simp
    rw [Set.indicator_apply]
    unfold mult
    by_cases h : z ∈ latticeOf (tight quadRows ![1 / 2, 1 / 2])
    · rw [if_pos h]
      obtain ⟨h0, h1⟩ := (quad_tight z).1 h
      have : fiber [![-1, 0], ![0, -1]] z = {[(-z 0).toNat, (-z 1).toNat]} := by
        ext e
        constructor
        · rintro ⟨h2, h3⟩
          obtain ⟨x, y, rfl⟩ : ∃ x y, e = [x, y] := List.length_eq_two.1 h2
          rw [hlin] at h3
          have a0 := congrFun h3 0
          have a1 := congrFun h3 1
          simp at a0 a1
          rw [← a0, ← a1]
          simp
        · rintro rfl
          refine ⟨rfl, ?_⟩
          rw [hlin]
          funext k
          fin_cases k
          · show -(((-z 0).toNat : ℕ) : ℤ) = z 0
            omega
          · show -(((-z 1).toNat : ℕ) : ℤ) = z 1
            omega
      rw [this, Set.ncard_singleton]
      rfl
    · rw [if_neg h]
      have : fiber [![-1, 0], ![0, -1]] z = ∅ := by
        ext e
        constructor
        · rintro ⟨h2, h3⟩
          obtain ⟨x, y, rfl⟩ : ∃ x y, e = [x, y] := List.length_eq_two.1 h2
          rw [hlin] at h3
          refine h ((quad_tight z).2 ?_)
          rw [← h3]
          simp
        · intro hc; cases hc
      rw [this, Set.ncard_empty]
      rfl
  refine ⟨?_, ?_, ?_, [(quadCone, mult [![-1, 0], ![0, -1]])], rfl, ?_, 0, ⟨1, one_ne_zero, map_zero _⟩, ?_⟩
  · intro C hC
    rw [List.mem_singleton.1 hC]
    exact ⟨_, rfl⟩
  · intro C hC
    rw [List.mem_singleton.1 hC]
    unfold quadCone
    simp
  · intro C hC
    rw [List.mem_singleton.1 hC]
    exact Or.inl rfl
  · intro b hb
    rw [List.mem_singleton.1 hb]
    show act (PolySubst.den' [![-1, 0], ![0, -1]]) (mult [![-1, 0], ![0, -1]]) = emb (gf [![0, 0]])
    rw [act_mult (cost := ![1, 1]) _ (by decide)]
    congr 1
    unfold gf
    rw [List.map_singleton, List.sum_singleton, ← mono_zero]
    congr 1
    funext k; fin_cases k <;> rfl
  · intro z
    simp only [List.map_cons, List.map_nil, List.sum_cons, List.sum_nil, add_zero, Pi.zero_apply]
    rw [← hmult z]
    show ((1 : ℤ) : ℚ) * _ = _
    simp

theorem quad_feasible (z : Vec 2) : feasible quadRows z = true ↔ z ∈ [![-3, 0], ![-2, 0], (![-1, 0] : Vec 2)] := by
  have h1 : feasible quadRows z = true ↔ (0 ≤ 1 - 2 * z 0 ∧ 0 ≤ 1 - 2 * z 1 ∧ 0 ≤ -1 - z 0 + 4 * z 1 ∧ 0 ≤ 3 + z 0) := by
    unfold feasible quadRows
    rw [List.all_eq_true]
    simp only [List.mem_cons, List.not_mem_nil, or_false, forall_eq_or_imp, forall_eq, decide_eq_true_eq, ExpSubst.inner, Fin.sum_univ_two]
    simp
    omega
  rw [h1]
  have hz : z = ![z 0, z 1] := by funext i; fin_cases i <;> rfl
  constructor
  · rintro ⟨a, b, c, d⟩
    have e0 : z 1 = 0 := by omega
    have e1 : z 0 ≤ -1 := by omega
    have e2 : -3 ≤ z 0 := by omega
    rw [hz, e0]
    generalize z 0 = x0 at *
    interval_cases x0 <;> decide
  · intro h
    simp only [List.mem_cons, List.not_mem_nil, or_false] at h
    rcases h with rfl | rfl | rfl <;> decide

/-- **C79, violated with the option `single`.** The reported point is the optimal one, but the reported number of optimal points is 2 instead of 1. -/
theorem c79_single_number_example :
    LPOptimal quadRows ![1, 1] ![1 / 2, 1 / 2] ∧ Represents [quadCone] (latticeOf (tight quadRows ![1 / 2, 1 / 2])) ∧
    (∀ z, feasible quadRows z = true ↔ z ∈ [![-3, 0], ![-2, 0], (![-1, 0] : Vec 2)]) ∧
    (∃ a, solveIP table [quadCone] quadRows ![1, 1] true 1 (fun _ => []) 100 100 = .ok (a, 0) ∧ a.point = ![-1, 0] ∧ a.number = 2) ∧
    (([![-3, 0], ![-2, 0], (![-1, 0] : Vec 2)]).filter fun z => inner ![1, 1] z = -1).length = 1 := by
  refine ⟨quad_vertex, quad_represents, quad_feasible, ?_, by decide⟩
  have h : (match solveIP table [quadCone] quadRows ![1, 1] true 1 (fun _ => []) 100 100 with
      | .ok (a, i) => some (a.point 0, a.point 1, a.number, i)
      | .error _ => none) = some (-1, 0, 2, 0) := by decide +kernel
  generalize solveIP table [quadCone] quadRows ![1, 1] true 1 (fun _ => []) 100 100 = r at h ⊢
  split at h
  · rename_i a i
    simp only [Option.some.injEq, Prod.mk.injEq] at h
    obtain ⟨h0, h1, h2, rfl⟩ := h
    refine ⟨a, rfl, ?_, h2⟩
    funext k; fin_cases k
    · exact h0
    · exact h1
  · cases h

/-! ## The hash table is too small: the loop never ends -/

/-- A table with two places. -/
def tiny : Hashing := ⟨2, by norm_num, fun _ => 0, fun _ => by norm_num⟩

/-- The search below the empty level of a cone with three exponent vectors of the same value does not end with a table of two places. -/
example : (match nextTerm tiny 100 (⟨1, 0, ![0, 0], [![-1, 0], ![0, -1]], [-1, -1], [-1, -1], [0, 1], false,
    ((Heap.empty : VHeap).add vkey ([2, 0], -2)).get (by decide +kernel), [], 0, 0⟩ : Info 2) with | .error .hang => true | _ => false) = true := by decide +kernel

/-! ## Runs of the whole program -/

open Verif.Barvinok (Ntl Mat)
open Verif.Brion (LatticePoints IsVertexList Triangulation normal normals sides)

/-- The triangle of `Verif/Brion/Example.lean` as rows. -/
def triRows : List (ℤ × Vec 2) := [(0, ![1, 0]), (0, ![0, 1]), (2, ![-1, -2])]

theorem tri_normals : normals triRows = Brion.Triangle.a := by
  funext i k
  fin_cases i <;> fin_cases k <;> rfl

theorem tri_sides : sides triRows = Brion.Triangle.b := by
  funext i
  fin_cases i <;> simp [sides, triRows, Brion.Triangle.b]

/-- Maximization and minimization over the triangle end with an optimum for some cost. -/
example (X : Smith.Xgcd) (mini : Bool) : ∃ (N : Ntl 2) (cost lam : Vec 2) (H : Hashing) (K F : ℕ) (x : Vec 2) (v k : ℤ), N.Ok ∧ N.ShortestRow ∧
    optimize (m := 1) N X (fun C => C.vertex) 2 Brion.Triangle.cones triRows mini false cost 1 (fun _ => lam) H 1 (fun _ => []) K F = .ok (.optimum x v (some k)) ∧
    IsOptimal mini cost Brion.Triangle.S x ∧ v = inner cost x := by
  obtain ⟨N, hN, hR⟩ := Barvinok.shortestRow_satisfiable 2
  have hS : LatticePoints (normals triRows) (sides triRows) Brion.Triangle.S := by rw [tri_normals, tri_sides]; exact Brion.Triangle.lattice
  have hvs : IsVertexList (normals triRows) (sides triRows) (Brion.Triangle.cones.map (·.1)) := by rw [tri_normals, tri_sides]; exact Brion.Triangle.vertices
  have hT : ∀ c ∈ Brion.Triangle.cones, Triangulation c.2 (normal (normals triRows) (sides triRows) c.1) := by
    rw [tri_normals, tri_sides]; exact Brion.Triangle.triangulations
  obtain ⟨P0, hP0, ⟨lam, hlam⟩, -⟩ := c79_ends (m := 1) N hN (Brion.shortVectors_shortestRow N hN hR) X (fun C => C.vertex) 2 (by norm_num) triRows _ hS
    Brion.Triangle.cones (by decide +kernel) hvs hT mini 0
  obtain ⟨P, hP, -, h⟩ := c79_ends (m := 1) N hN (Brion.shortVectors_shortestRow N hN hR) X (fun C => C.vertex) 2 (by norm_num) triRows _ hS
    Brion.Triangle.cones (by decide +kernel) hvs hT mini (signed mini lam)
  have e : P = P0 := by rw [hP0] at hP; cases hP; rfl
  subst e
  have hint : ((1 + 1 : ℕ) : ℤ) * P.length ≤ Piped.intMax := by
    obtain ⟨-, D, hD, -, hlen⟩ := polytope_represents (m := 1) N hN X (fun C => C.vertex) 2 (by norm_num) triRows _ hS Brion.Triangle.cones hvs hT P hP
    have h1 := Brion.c71_barvinok N hN hR 1 le_rfl .dual (fun C => C.vertex) Brion.Triangle.cones D hD (fun _ => 1) (by decide +kernel)
    have h2 : D.length ≤ 6 := h1.trans (by decide)
    have h3 : (12 : ℤ) ≤ Piped.intMax := by decide
    rw [hlen]
    push_cast
    omega
  have hu : Used P (signed mini (signed mini lam)) (fun _ => []) 0 lam := by
    have : signed mini (signed mini lam) = lam := by
      unfold signed; cases mini <;> simp
    exact ⟨this.symm, hlam, fun j hj => absurd hj (Nat.not_lt_zero j)⟩
  obtain ⟨⟨size, hsize⟩, h2⟩ := (h hint (fun _ => lam) 0 hlam 1 (by norm_num)).2 (by decide) (fun _ => []) 0 lam hu
  let H : Hashing := ⟨size + 1, Nat.succ_pos _, fun _ => 0, fun _ => Nat.succ_pos _⟩
  obtain ⟨K, F, h3⟩ := h2 H
  rcases h3 1 K F (by norm_num) le_rfl le_rfl with ⟨x, v, number, e, hnum⟩ | ⟨-, hc⟩
  · cases number with
    | none => exact absurd rfl (hnum.1 rfl)
    | some k =>
      obtain ⟨o1, o2, -⟩ := c79_optimal (m := 1) N hN X (fun C => C.vertex) 2 (by norm_num) triRows _ hS Brion.Triangle.cones (by decide +kernel) hvs hT mini _ _ _ H _ _ _ _ x v k e
      exact ⟨N, signed mini lam, lam, H, K, F, x, v, k, hN, hR, e, o1, o2⟩
  · exact absurd hc (hsize H (Nat.le_succ size))

/-- The segment from 1/3 to 2/3 contains no lattice point. -/
def gapRows : List (ℤ × Vec 1) := [(-1, ![3]), (2, ![-3])]

def gapCones : List ((Fin 1 → ℚ) × List (Mat 1)) := [(![1 / 3], [!![-3]]), (![2 / 3], [!![3]])]

def gapA : Fin 2 → Vec 1 := ![![-3], ![3]]
def gapB : Fin 2 → ℚ := ![-1, 2]

theorem gap_normals : normals gapRows = gapA := by
  funext i k
  fin_cases i <;> fin_cases k <;> rfl

theorem gap_sides : sides gapRows = gapB := by
  funext i
  fin_cases i <;> simp [sides, gapRows, gapB]

theorem gap_points : LatticePoints gapA gapB [] := by
  refine ⟨List.nodup_nil, fun z => (iff_of_false (List.not_mem_nil) fun h => ?_)⟩
  have h0 := h 0
  have h1 := h 1
  rw [Fin.sum_univ_one] at h0 h1
  have e0 : ((-3 : ℤ) : ℚ) * (z 0 : ℚ) ≤ ((-1 : ℤ) : ℚ) := by simpa [gapA, gapB] using h0
  have e1 : ((3 : ℤ) : ℚ) * (z 0 : ℚ) ≤ ((2 : ℤ) : ℚ) := by simpa [gapA, gapB] using h1
  have f0 : -3 * z 0 ≤ -1 := by exact_mod_cast e0
  have f1 : 3 * z 0 ≤ 2 := by exact_mod_cast e1
  omega

theorem gap_vertices : IsVertexList gapA gapB (gapCones.map (·.1)) := by
  refine ⟨by decide +kernel, fun x => ?_⟩
  rw [Brion.extreme_iff]
  have hd0 : ∀ y : Fin 1 → ℝ, Barvinok.Spec.dot (gapA 0) y = -3 * y 0 := by intro y; simp [Barvinok.Spec.dot, gapA]
  have hd1 : ∀ y : Fin 1 → ℝ, Barvinok.Spec.dot (gapA 1) y = 3 * y 0 := by intro y; simp [Barvinok.Spec.dot, gapA]
  have hs0 : ((gapB 0 : ℚ) : ℝ) = -1 := by simp [gapB]
  have hs1 : ((gapB 1 : ℚ) : ℝ) = 2 := by simp [gapB]
  have hP : (x ∈ Brion.Poly gapA fun i => ((gapB i : ℚ) : ℝ)) ↔ 1 / 3 ≤ x 0 ∧ x 0 ≤ 2 / 3 := by
    show (∀ i, Barvinok.Spec.dot (gapA i) x ≤ ((gapB i : ℚ) : ℝ)) ↔ _
    rw [Fin.forall_fin_two, hd0, hd1, hs0, hs1]
    constructor
    · rintro ⟨a, b⟩; constructor <;> linarith
    · rintro ⟨a, b⟩; constructor <;> linarith
  have hA : ∀ l : Fin 1 → ℝ, (∀ i, Barvinok.Spec.dot (gapA i) x = ((gapB i : ℚ) : ℝ) → Barvinok.Spec.dot (gapA i) l = 0) ↔
      (x 0 = 1 / 3 → l 0 = 0) ∧ (x 0 = 2 / 3 → l 0 = 0) := by
    intro l
    rw [Fin.forall_fin_two, hd0, hd1, hs0, hs1, hd0, hd1]
    constructor
    · rintro ⟨a, b⟩
      exact ⟨fun h => by linarith [a (by rw [h]; norm_num)], fun h => by linarith [b (by rw [h]; norm_num)]⟩
    · rintro ⟨a, b⟩
      exact ⟨fun h => by rw [a (by linarith)]; norm_num, fun h => by rw [b (by linarith)]; norm_num⟩
  rw [hP]
  simp only [hA]
  have hl : (∃ v ∈ gapCones.map (·.1), x = fun k => (v k : ℝ)) ↔ x 0 = 1 / 3 ∨ x 0 = 2 / 3 := by
    have e : ∀ p : ℚ, (x = fun k => ((![p] : Fin 1 → ℚ) k : ℝ)) ↔ x 0 = (p : ℝ) := by
      intro p
      constructor
      · intro h; rw [h]; simp
      · intro h; funext k; fin_cases k; simpa using h
    simp only [gapCones, List.map_cons, List.map_nil, List.mem_cons, List.not_mem_nil, or_false, exists_eq_or_imp, exists_eq_left, e]
    norm_num
  rw [hl]
  constructor
  · intro h
    refine ⟨by rcases h with h | h <;> rw [h] <;> norm_num, fun l hl => ?_⟩
    funext k
    fin_cases k
    rcases h with h | h
    · exact hl.1 h
    · exact hl.2 h
  · rintro ⟨-, h⟩
    by_contra hc
    rw [not_or] at hc
    have := congrFun (h (fun _ => 1) ⟨fun h1 => absurd h1 hc.1, fun h1 => absurd h1 hc.2⟩) 0
    norm_num at this

theorem gap_triangulations : ∀ c ∈ gapCones, Triangulation c.2 (normal gapA gapB c.1) := by
  have hact : ∀ (p : ℚ) (i : Fin 2), i ∈ Brion.active gapA gapB ![p] ↔ (i = 0 ∧ p = 1 / 3) ∨ (i = 1 ∧ p = 2 / 3) := by
    intro p i
    show ∑ k, (gapA i k : ℚ) * ![p] k = gapB i ↔ _
    rw [Fin.sum_univ_one]
    fin_cases i
    · simp [gapA, gapB]
      constructor <;> intro h <;> linarith
    · simp [gapA, gapB]
      constructor <;> intro h <;> linarith
  intro c hc
  simp only [gapCones, List.mem_cons, List.not_mem_nil, or_false] at hc
  rcases hc with rfl | rfl
  · refine Brion.Triangle.simple_vertex gapA gapB _ _ (by decide +kernel) (fun _ => 0) (fun a b _ => Subsingleton.elim a b)
      (by intro k; fin_cases k; funext l; fin_cases l; rfl) fun i => ?_
    rw [hact]
    fin_cases i <;> norm_num
  · refine Brion.Triangle.simple_vertex gapA gapB _ _ (by decide +kernel) (fun _ => 1) (fun a b _ => Subsingleton.elim a b)
      (by intro k; fin_cases k; funext l; fin_cases l; rfl) fun i => ?_
    rw [hact]
    fin_cases i <;> norm_num

theorem gap_optimal : LPOptimal gapRows (signed false ![1]) ![2 / 3] := by
  intro x hx
  have h1 := hx (2, ![-3]) (by simp [gapRows])
  simp only [Fin.sum_univ_one, signed] at h1 ⊢
  simp at h1 ⊢
  linarith

/-- **C79, violated with the option `single`**: maximizing `x` over the segment from 1/3 to 2/3 never ends, whatever the lattice reduction and the hash table do. -/
theorem c79_single_empty_example (N : Ntl 1) (hN : N.Ok) (hs : ShortVectors N) (X : Smith.Xgcd) (H : Hashing) (tries ptries innerFuel fuel : ℕ) (guesses : ℕ → Vec 1)
    (draws : ℕ → List (ℕ × ℕ)) :
    optimize (m := 0) N X (fun C => C.vertex) 2 (singleCone (m := 0) ![2 / 3] gapCones) gapRows false true ![1] tries guesses H ptries draws innerFuel fuel = .error (.inr .fuel) ∨
    optimize (m := 0) N X (fun C => C.vertex) 2 (singleCone (m := 0) ![2 / 3] gapCones) gapRows false true ![1] tries guesses H ptries draws innerFuel fuel = .error (.inr .hang) := by
  have hS : LatticePoints (normals gapRows) (sides gapRows) [] := by rw [gap_normals, gap_sides]; exact gap_points
  have hvs : IsVertexList (normals gapRows) (sides gapRows) (gapCones.map (·.1)) := by rw [gap_normals, gap_sides]; exact gap_vertices
  have hT : ∀ c ∈ gapCones, Triangulation c.2 (normal (normals gapRows) (sides gapRows) c.1) := by
    rw [gap_normals, gap_sides]; exact gap_triangulations
  have hv : (![2 / 3] : Fin 1 → ℚ) ∈ gapCones.map (·.1) := by simp [gapCones]
  have hone : singleCone (m := 0) ![2 / 3] gapCones = [(![2 / 3], [!![3]])] := by
    unfold singleCone gapCones
    rw [List.filter_cons_of_neg, List.filter_cons_of_pos, List.filter_nil]
    · simp
    · simp only [decide_eq_true_eq]
      intro h
      have := congrFun h 0
      norm_num at this
  obtain ⟨D, hD⟩ := ExpSubst.delivered_dual N hs (fun C => C.vertex) 1 le_rfl [((![2 / 3] : Fin 1 → ℚ), [!![3]])] fun c hc => by
    rw [List.mem_singleton.1 hc]; exact (hT (![2 / 3], [!![3]]) (by simp [gapCones])).simplicial
  have hdec := PolySubst.decomposeCones_eq (n := 1) N .dual (fun C => C.vertex) 1 _ D hD
  have hready := PolySubst.delivered_ready (m := 0) N hN .dual (fun C => C.vertex) 1 one_ne_zero (by decide) 2 (by norm_num) _ D hD
  obtain ⟨P, h1⟩ : ∃ P, PolySubst.computePoints (m := 0) X 2 D.reverse = .ok P := by
    obtain ⟨pt, h1, -⟩ := PolySubst.computePoints_ok (m := 0) X 2 D.reverse (fun C hC => hready C (List.mem_reverse.1 hC))
      (fun C hC => PolySubst.delivered_unimodular (m := 0) N hN .dual (fun C => C.vertex) _ D hD C (List.mem_reverse.1 hC))
    exact ⟨_, h1⟩
  have hP : conesFor (m := 0) N X (fun C => C.vertex) 2 [(![2 / 3], [!![3]])] = .ok P := by
    unfold conesFor
    rw [hdec]
    exact h1
  obtain ⟨-, D', hD', hgen, -⟩ := single_represents (m := 0) N hN X (fun C => C.vertex) 2 (by norm_num) gapRows ![2 / 3] [!![3]]
    (hT (![2 / 3], [!![3]]) (by simp [gapCones])) P hP
  rw [hD] at hD'
  cases hD'
  have hg : Generic P ![1] := by
    rw [hgen]
    intro C hC i
    obtain ⟨F, -, hG⟩ := (hready C hC).facets
    have h0 := Barvinok.row_ne_zero C.rays hG.ne i
    intro h
    apply h0
    funext k
    fin_cases k
    simpa using h
  rw [← hone] at hP
  exact c79_single_empty (m := 0) N hN X (fun C => C.vertex) 2 (by norm_num) gapRows hS gapCones hvs hT false ![1] ![2 / 3] hv gap_optimal P hP hg tries guesses H ptries
    draws innerFuel fuel

/-- Such lattice reductions exist. -/
example : ∃ N : Ntl 1, N.Ok ∧ ShortVectors N := by
  obtain ⟨N, hN, hR⟩ := Barvinok.shortestRow_satisfiable 1
  exact ⟨N, hN, Brion.shortVectors_shortestRow N hN hR⟩

end Verif.Digging
