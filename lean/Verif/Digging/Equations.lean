import Verif.Digging.Optimum
import Verif.Preprocess.EndToEnd
import Verif.Brion.Size
import Verif.Brion.Example

/-!
# `latte-maximize equ`, `latte-minimize equ`: the optimum of a polytope given with equations

`code/latte/maximize.cpp` 265–268, 309–319, 478–486, 517–527, `code/latte/preprocess.cpp` 982–1000, and the same lines of `minimize.cpp`.
-/

namespace Verif.Digging

open Verif.Barvinok
open Verif.Barvinok.Spec
open Verif.ExpSubst
open Verif.PolySubst
open Verif.Brion

variable {d k m n : ℕ}

/-- The rows of the reduced matrix as `SolveIP` gets them, maximize.cpp:315–326. -/
def rowsOf (out : List (Preprocess.Row d)) : List (ℤ × Vec d) := out.map fun r => (r.b, r.a)

/-- The printed solution and value after `ProjectingUp`, maximize.cpp:481–483, 521–523 (`holdCost` is the original cost vector again). -/
def projectReport (p : Fin n → ℤ) (B : Fin d → Fin n → ℤ) (cost : Vec n) : Report d → Report n
  | .empty => .empty
  | .optimum y _ number => .optimum (Preprocess.projectingUp p B y) (inner cost (Preprocess.projectingUp p B y)) number

/-- The run after `preprocessProblem` has returned: the cost vector given to it has the sign changed for minimization (maximize.cpp:266–267); `optimize` begins with
this change, so it is undone in its argument. -/
def optimizeReduced (N : Ntl (k + 1)) (X : Smith.Xgcd) (irr : Cone (k + 1) → Fin (k + 1) → ℚ) (pfuel : ℕ)
    (cones : List ((Fin (k + 1) → ℚ) × List (Mat (k + 1)))) (out : List (Preprocess.Row (k + 1))) (p : Fin n → ℤ) (B : Fin (k + 1) → Fin n → ℤ)
    (newCost : Fin (k + 1) → ℤ) (mini : Bool) (cost : Vec n) (tries : ℕ) (guesses : ℕ → Vec (k + 1)) (H : Hashing) (ptries : ℕ) (draws : ℕ → List (ℕ × ℕ))
    (innerFuel fuel : ℕ) : Except (Fail ⊕ Stop) (Report n) :=
  match optimize N X irr pfuel cones (rowsOf out) mini false (signed mini newCost) tries guesses H ptries draws innerFuel fuel with
  | .error e => .error e
  | .ok r => .ok (projectReport p B cost r)

/-- **Specification.** `x` is an optimal point of the set `S`. -/
def OptimalIn (mini : Bool) (cost : Vec n) (S : Set (Vec n)) (x : Vec n) : Prop :=
  x ∈ S ∧ ∀ y ∈ S, if mini then inner cost x ≤ inner cost y else inner cost y ≤ inner cost x

theorem rowsOf_points {out : List (Preprocess.Row d)} {S : List (Vec d)} (h : LatticePoints (normals (rowsOf out)) (sides (rowsOf out)) S) (z : Vec d) :
    z ∈ S ↔ z ∈ Preprocess.feasible out := by
  rw [h.mem, ← feasible_iff, feasible, List.all_eq_true]
  unfold rowsOf Preprocess.feasible
  simp only [List.mem_map, Set.mem_ofPred_eq, decide_eq_true_eq]
  constructor
  · intro hz r hr
    have := hz _ ⟨r, hr, rfl⟩
    simpa [Preprocess.Row.eval, ExpSubst.inner] using this
  · rintro hz _ ⟨r, hr, rfl⟩
    have := hz r hr
    simpa [Preprocess.Row.eval, ExpSubst.inner] using this

theorem inner_signed (mini : Bool) (c x : Vec n) : inner (signed mini c) x = (if mini then -1 else 1) * inner c x := by
  unfold signed
  cases mini
  · simp
  · simp [inner_neg_left]

/-- The objective in the two systems of coordinates. -/
theorem projectingUp_cost {fuel : ℕ} {eqs : Fin m → Preprocess.Row n} {ineqs : List (Preprocess.Row n)} {mini : Bool} {cost : Vec n} (hi : ineqs ≠ []) (hmn : m ≤ n)
    (hs : Preprocess.IntSolvable eqs ∨ Preprocess.Independent eqs) {out : List (Preprocess.Row d)} {p : Fin n → ℤ} {B : Fin d → Fin n → ℤ} {newCost : Fin d → ℤ}
    (hrun : Preprocess.preprocessProblem fuel eqs ineqs (signed mini cost) 1 = .reduced d out p B newCost) :
    ∃ c, ∀ z, inner cost (Preprocess.projectingUp p B z) = c + inner (signed mini newCost) z := by
  refine ⟨inner cost p, fun z => ?_⟩
  have h := (Preprocess.c67_lattice_points hi hmn hs hrun).2.2.2 z
  rw [Preprocess.c67_project_up, inner_signed]
  have h' : inner (signed mini cost) (Preprocess.lift 1 p B z) = inner (signed mini cost) p + inner newCost z := by
    unfold ExpSubst.inner
    rw [h, one_mul]
  rw [inner_signed, inner_signed] at h'
  cases mini
  · simpa using h'
  · simp at h' ⊢
    linarith

/-- **C79 with equations.** If the polytope is given by equations (integrally solvable, or independent) and inequalities, the printed point is a point of the
polytope in the original coordinates at which the cost is optimal, the printed value is the cost there, and the printed number is the number of such points. -/
theorem c79_equations {hfuel : ℕ} {eqs : Fin m → Preprocess.Row n} {ineqs : List (Preprocess.Row n)} {mini : Bool} {cost : Vec n} (hi : ineqs ≠ []) (hmn : m ≤ n)
    (hs : Preprocess.IntSolvable eqs ∨ Preprocess.Independent eqs) {out : List (Preprocess.Row (k + 1))} {p : Fin n → ℤ} {B : Fin (k + 1) → Fin n → ℤ}
    {newCost : Fin (k + 1) → ℤ} (hrun : Preprocess.preprocessProblem hfuel eqs ineqs (signed mini cost) 1 = .reduced (k + 1) out p B newCost)
    (N : Ntl (k + 1)) (hN : N.Ok) (X : Smith.Xgcd) (irr : Cone (k + 1) → Fin (k + 1) → ℚ) (pfuel : ℕ) (hfuel' : 1 < pfuel)
    (S : List (Vec (k + 1))) (hS : LatticePoints (normals (rowsOf out)) (sides (rowsOf out)) S)
    (cones : List ((Fin (k + 1) → ℚ) × List (Mat (k + 1)))) (hne : cones ≠ [])
    (hvs : IsVertexList (normals (rowsOf out)) (sides (rowsOf out)) (cones.map (·.1)))
    (hT : ∀ c ∈ cones, Triangulation c.2 (normal (normals (rowsOf out)) (sides (rowsOf out)) c.1))
    (tries : ℕ) (guesses : ℕ → Vec (k + 1)) (H : Hashing) (ptries : ℕ) (draws : ℕ → List (ℕ × ℕ)) (innerFuel fuel : ℕ) (x : Vec n) (v number : ℤ)
    (h : optimizeReduced N X irr pfuel cones out p B newCost mini cost tries guesses H ptries draws innerFuel fuel = .ok (.optimum x v (some number))) :
    OptimalIn mini cost (Preprocess.solutions eqs ineqs 1) x ∧ v = inner cost x ∧
      number = ({z | z ∈ Preprocess.solutions eqs ineqs 1 ∧ inner cost z = inner cost x}.ncard : ℤ) := by
  have hbij := (Preprocess.c67_lattice_points hi hmn hs hrun).1
  obtain ⟨c, hc⟩ := projectingUp_cost hi hmn hs hrun
  unfold optimizeReduced at h
  split at h
  · cases h
  rename_i r hr
  cases r with
  | empty => cases h
  | optimum y w num =>
    cases h
    obtain ⟨h1, -, h3⟩ := c79_optimal N hN X irr pfuel hfuel' (rowsOf out) S hS cones hne hvs hT mini (signed mini newCost) tries guesses H ptries draws innerFuel fuel y w
      number hr
    have hmem : ∀ z, z ∈ S ↔ z ∈ Preprocess.feasible out := rowsOf_points hS
    have hup : ∀ z, Preprocess.lift 1 p B z = Preprocess.projectingUp p B z := fun z => (Preprocess.c67_project_up p B z).symm
    refine ⟨⟨?_, fun z hz => ?_⟩, rfl, ?_⟩
    · rw [← hup]
      exact hbij.mapsTo ((hmem y).1 h1.1)
    · obtain ⟨z', hz', rfl⟩ := hbij.surjOn hz
      have := h1.2 z' ((hmem z').2 hz')
      rw [hup, hc, hc]
      cases mini
      · simp at this ⊢
        linarith
      · simp at this ⊢
        linarith
    · rw [h3]
      have hset : {z | z ∈ Preprocess.solutions eqs ineqs 1 ∧ inner cost z = inner cost (Preprocess.projectingUp p B y)} =
          Preprocess.lift 1 p B '' {z | z ∈ S.filter fun z => inner (signed mini newCost) z = inner (signed mini newCost) y} := by
        ext z
        simp only [Set.mem_ofPred_eq, Set.mem_image, List.mem_filter, decide_eq_true_eq]
        constructor
        · rintro ⟨hz, he⟩
          obtain ⟨z', hz', rfl⟩ := hbij.surjOn hz
          refine ⟨z', ⟨(hmem z').2 hz', ?_⟩, rfl⟩
          rw [hup, hc, hc] at he
          linarith
        · rintro ⟨z', ⟨hz', he⟩, rfl⟩
          refine ⟨hbij.mapsTo ((hmem z').1 hz'), ?_⟩
          rw [hup, hc, hc, he]
      have hinj : Set.InjOn (Preprocess.lift 1 p B) {z | z ∈ S.filter fun z => inner (signed mini newCost) z = inner (signed mini newCost) y} :=
        hbij.injOn.mono fun z hz => (hmem z).1 (List.mem_of_mem_filter hz)
      classical
      rw [hset, hinj.ncard_image, show {z | z ∈ S.filter fun z => inner (signed mini newCost) z = inner (signed mini newCost) y} =
        ((S.filter fun z => inner (signed mini newCost) z = inner (signed mini newCost) y).toFinset : Set (Vec (k + 1))) by ext z; simp,
        Set.ncard_coe_finset, List.toFinset_card_of_nodup (hS.nodup.filter _)]

/-- **C79 with equations, no lattice points.** `Integrally empty polytope` is printed only if there are none. -/
theorem c79_equations_empty {hfuel : ℕ} {eqs : Fin m → Preprocess.Row n} {ineqs : List (Preprocess.Row n)} {mini : Bool} {cost : Vec n} (hi : ineqs ≠ [])
    (hmn : m ≤ n) (hs : Preprocess.IntSolvable eqs ∨ Preprocess.Independent eqs) {out : List (Preprocess.Row (k + 1))} {p : Fin n → ℤ}
    {B : Fin (k + 1) → Fin n → ℤ} {newCost : Fin (k + 1) → ℤ} (hrun : Preprocess.preprocessProblem hfuel eqs ineqs (signed mini cost) 1 = .reduced (k + 1) out p B newCost)
    (N : Ntl (k + 1)) (hN : N.Ok) (X : Smith.Xgcd) (irr : Cone (k + 1) → Fin (k + 1) → ℚ) (pfuel : ℕ) (hfuel' : 1 < pfuel)
    (S : List (Vec (k + 1))) (hS : LatticePoints (normals (rowsOf out)) (sides (rowsOf out)) S)
    (cones : List ((Fin (k + 1) → ℚ) × List (Mat (k + 1)))) (hne : cones ≠ [])
    (hvs : IsVertexList (normals (rowsOf out)) (sides (rowsOf out)) (cones.map (·.1)))
    (hT : ∀ c ∈ cones, Triangulation c.2 (normal (normals (rowsOf out)) (sides (rowsOf out)) c.1))
    (hint : ∀ P, conesFor N X irr pfuel cones = .ok P → ((k + 1 : ℕ) : ℤ) * P.length ≤ Piped.intMax)
    (tries : ℕ) (guesses : ℕ → Vec (k + 1)) (H : Hashing) (ptries : ℕ) (draws : ℕ → List (ℕ × ℕ)) (innerFuel fuel : ℕ)
    (h : optimizeReduced N X irr pfuel cones out p B newCost mini cost tries guesses H ptries draws innerFuel fuel = .ok .empty) :
    Preprocess.solutions eqs ineqs 1 = ∅ := by
  have hbij := (Preprocess.c67_lattice_points hi hmn hs hrun).1
  unfold optimizeReduced at h
  split at h
  · cases h
  rename_i r hr
  cases r with
  | optimum y w num => cases h
  | empty =>
    have h1 := c79_empty N hN X irr pfuel hfuel' (rowsOf out) S hS cones hne hvs hT hint mini _ tries guesses H ptries draws innerFuel fuel hr
    rw [← hbij.image_eq, Set.image_eq_empty]
    refine Set.eq_empty_of_forall_notMem fun z hz => ?_
    have := (rowsOf_points hS z).2 hz
    rw [h1] at this
    cases this

/-! ## A concrete case: `x + y = 3`, `0 ≤ x ≤ 2`, maximize `5 x + 2 y` -/

namespace EquExample

def eqs : Fin 1 → Preprocess.Row 2 := ![⟨-3, ![1, 1]⟩]
def ineqs : List (Preprocess.Row 2) := [⟨0, ![1, 0]⟩, ⟨2, ![-1, 0]⟩]

theorem independent : Preprocess.Independent eqs := by
  refine Fintype.linearIndependent_iff.2 fun g hg i => ?_
  have := congrFun hg 0
  simp [eqs] at this
  rw [Fin.fin_one_eq_zero i]; exact this

def rows : List (ℤ × Vec 1) := [(3, ![-1]), (-1, ![1])]

/-- Reads the reduced problem. -/
def shape {n : ℕ} : Preprocess.Outcome n → Option (List (ℤ × List ℤ) × List ℤ)
  | .reduced 1 out _ _ c => some (out.map fun r => (r.b, List.ofFn r.a), List.ofFn c)
  | _ => none

theorem run : ∃ (out : List (Preprocess.Row 1)) (p : Fin 2 → ℤ) (B : Fin 1 → Fin 2 → ℤ),
    Preprocess.preprocessProblem 10 eqs ineqs (signed false ![5, 2]) 1 = .reduced 1 out p B ![-3] ∧ rowsOf out = rows := by
  have h : shape (Preprocess.preprocessProblem 10 eqs ineqs (signed false ![5, 2]) 1) = some ([(3, [-1]), (-1, [1])], [-3]) := by decide +kernel
  generalize Preprocess.preprocessProblem 10 eqs ineqs (signed false ![5, 2]) 1 = o at h ⊢
  unfold shape at h
  split at h
  · rename_i out p B c
    simp only [Option.some.injEq, Prod.mk.injEq] at h
    obtain ⟨h1, h2⟩ := h
    have hc : c = ![-3] := by
      funext k; fin_cases k
      simpa using h2
    subst hc
    refine ⟨out, p, B, rfl, ?_⟩
    unfold rowsOf rows
    rcases out with _ | ⟨r1, _ | ⟨r2, _ | ⟨r3, out⟩⟩⟩
    · simp at h1
    · simp at h1
    · simp at h1
      obtain ⟨⟨a1, a2⟩, b1, b2⟩ := h1
      simp only [List.map_cons, List.map_nil, a1, b1]
      rw [show r1.a = ![-1] by funext k; fin_cases k; exact a2, show r2.a = ![1] by funext k; fin_cases k; exact b2]
    · simp at h1
  · cases h

def segCones : List ((Fin 1 → ℚ) × List (Mat 1)) := [(![3], [!![1]]), (![1], [!![-1]])]

def segA : Fin 2 → Vec 1 := ![![1], ![-1]]
def segB : Fin 2 → ℚ := ![3, -1]

theorem seg_normals : normals rows = segA := by
  funext i k
  fin_cases i <;> fin_cases k <;> rfl

theorem seg_sides : sides rows = segB := by
  funext i
  fin_cases i <;> simp [sides, rows, segB]

theorem seg_points : LatticePoints segA segB [![1], ![2], ![3]] := by
  refine ⟨by decide, fun z => ?_⟩
  rw [Fin.forall_fin_two, Fin.sum_univ_one, Fin.sum_univ_one]
  have e0 : ((segA 0 0 : ℤ) : ℚ) * (z 0 : ℚ) ≤ segB 0 ↔ z 0 ≤ 3 := by
    rw [show ((segA 0 0 : ℤ) : ℚ) * (z 0 : ℚ) = ((z 0 : ℤ) : ℚ) by simp [segA], show segB 0 = ((3 : ℤ) : ℚ) by simp [segB]]
    exact Int.cast_le
  have e1 : ((segA 1 0 : ℤ) : ℚ) * (z 0 : ℚ) ≤ segB 1 ↔ -z 0 ≤ -1 := by
    rw [show ((segA 1 0 : ℤ) : ℚ) * (z 0 : ℚ) = ((-z 0 : ℤ) : ℚ) by simp [segA], show segB 1 = ((-1 : ℤ) : ℚ) by simp [segB]]
    exact Int.cast_le
  rw [e0, e1]
  have ez : ∀ c : ℤ, z = ![c] ↔ z 0 = c := by
    intro c
    constructor
    · intro h; rw [h]; rfl
    · intro h; funext k; fin_cases k; exact h
  simp only [List.mem_cons, List.not_mem_nil, or_false, ez]
  omega

theorem seg_vertices : IsVertexList segA segB (segCones.map (·.1)) := by
  refine ⟨by decide +kernel, fun x => ?_⟩
  rw [Brion.extreme_iff]
  have hd0 : ∀ y : Fin 1 → ℝ, Barvinok.Spec.dot (segA 0) y = y 0 := by intro y; simp [Barvinok.Spec.dot, segA]
  have hd1 : ∀ y : Fin 1 → ℝ, Barvinok.Spec.dot (segA 1) y = -y 0 := by intro y; simp [Barvinok.Spec.dot, segA]
  have hs0 : ((segB 0 : ℚ) : ℝ) = 3 := by simp [segB]
  have hs1 : ((segB 1 : ℚ) : ℝ) = -1 := by simp [segB]
  have hP : (x ∈ Brion.Poly segA fun i => ((segB i : ℚ) : ℝ)) ↔ 1 ≤ x 0 ∧ x 0 ≤ 3 := by
    show (∀ i, Barvinok.Spec.dot (segA i) x ≤ ((segB i : ℚ) : ℝ)) ↔ _
    rw [Fin.forall_fin_two, hd0, hd1, hs0, hs1]
    constructor
    · rintro ⟨a, b⟩; constructor <;> linarith
    · rintro ⟨a, b⟩; constructor <;> linarith
  have hA : ∀ l : Fin 1 → ℝ, (∀ i, Barvinok.Spec.dot (segA i) x = ((segB i : ℚ) : ℝ) → Barvinok.Spec.dot (segA i) l = 0) ↔
      (x 0 = 3 → l 0 = 0) ∧ (x 0 = 1 → l 0 = 0) := by
    intro l
    rw [Fin.forall_fin_two, hd0, hd1, hs0, hs1, hd0, hd1, neg_inj, neg_eq_zero]
  rw [hP]
  simp only [hA]
  have hl : (∃ v ∈ segCones.map (·.1), x = fun k => (v k : ℝ)) ↔ x 0 = 3 ∨ x 0 = 1 := by
    have e : ∀ p : ℚ, (x = fun k => ((![p] : Fin 1 → ℚ) k : ℝ)) ↔ x 0 = (p : ℝ) := by
      intro p
      constructor
      · intro h; rw [h]; simp
      · intro h; funext k; fin_cases k; simpa using h
    simp only [segCones, List.map_cons, List.map_nil, List.mem_cons, List.not_mem_nil, or_false, exists_eq_or_imp, exists_eq_left, e]
    norm_num
  rw [hl]
  constructor
  · intro h
    refine ⟨by rcases h with h | h <;> rw [h] <;> norm_num, fun l hl => ?_⟩
    funext k
    fin_cases k
    rcases h with h | h
    · exact hl.1 h
    · exact hl.2 h
  · rintro ⟨-, h⟩
    by_contra hc
    rw [not_or] at hc
    have := congrFun (h (fun _ => 1) ⟨fun h1 => absurd h1 hc.1, fun h1 => absurd h1 hc.2⟩) 0
    norm_num at this

theorem seg_triangulations : ∀ c ∈ segCones, Triangulation c.2 (normal segA segB c.1) := by
  have hact : ∀ (p : ℚ) (i : Fin 2), i ∈ Brion.active segA segB ![p] ↔ (i = 0 ∧ p = 3) ∨ (i = 1 ∧ p = 1) := by
    intro p i
    show ∑ k, (segA i k : ℚ) * ![p] k = segB i ↔ _
    rw [Fin.sum_univ_one]
    fin_cases i
    · simp [segA, segB]
    · simp [segA, segB]
  intro c hc
  simp only [segCones, List.mem_cons, List.not_mem_nil, or_false] at hc
  rcases hc with rfl | rfl
  · refine Brion.Triangle.simple_vertex segA segB _ _ (by decide +kernel) (fun _ => 0) (fun a b _ => Subsingleton.elim a b)
      (by intro k; fin_cases k; funext l; fin_cases l; rfl) fun i => ?_
    rw [hact]
    fin_cases i <;> norm_num
  · refine Brion.Triangle.simple_vertex segA segB _ _ (by decide +kernel) (fun _ => 1) (fun a b _ => Subsingleton.elim a b)
      (by intro k; fin_cases k; funext l; fin_cases l; rfl) fun i => ?_
    rw [hact]
    fin_cases i <;> norm_num

/-- The whole run ends, and with the optimum of the original problem. -/
theorem equations_example (X : Smith.Xgcd) : ∃ (out : List (Preprocess.Row 1)) (p : Fin 2 → ℤ) (B : Fin 1 → Fin 2 → ℤ) (N : Ntl 1) (H : Hashing) (K F : ℕ) (x : Vec 2)
    (v number : ℤ), N.Ok ∧ Preprocess.preprocessProblem 10 eqs ineqs (signed false ![5, 2]) 1 = .reduced 1 out p B ![-3] ∧
    optimizeReduced (k := 0) N X (fun C => C.vertex) 2 segCones out p B ![-3] false ![5, 2] 1 (fun _ => ![1]) H 1 (fun _ => []) K F = .ok (.optimum x v (some number)) ∧
    OptimalIn false ![5, 2] (Preprocess.solutions eqs ineqs 1) x ∧ v = inner ![5, 2] x := by
  obtain ⟨out, p, B, hrun, hrows⟩ := run
  obtain ⟨N, hN, hR⟩ := Barvinok.shortestRow_satisfiable 1
  have hS : LatticePoints (normals (rowsOf out)) (sides (rowsOf out)) [![1], ![2], ![3]] := by rw [hrows, seg_normals, seg_sides]; exact seg_points
  have hvs : IsVertexList (normals (rowsOf out)) (sides (rowsOf out)) (segCones.map (·.1)) := by rw [hrows, seg_normals, seg_sides]; exact seg_vertices
  have hT : ∀ c ∈ segCones, Triangulation c.2 (normal (normals (rowsOf out)) (sides (rowsOf out)) c.1) := by
    rw [hrows, seg_normals, seg_sides]; exact seg_triangulations
  have hsv := Brion.shortVectors_shortestRow N hN hR
  have hne : segCones ≠ [] := by simp [segCones]
  obtain ⟨P, hP, -, h⟩ := c79_ends (m := 0) N hN hsv X (fun C => C.vertex) 2 (by norm_num) (rowsOf out) _ hS segCones hne hvs hT false (signed false ![-3])
  obtain ⟨-, D, hD, hgen, hlen⟩ := polytope_represents (m := 0) N hN X (fun C => C.vertex) 2 (by norm_num) (rowsOf out) _ hS segCones hvs hT P hP
  have hready := PolySubst.delivered_ready (m := 0) N hN .dual (fun C => C.vertex) 1 one_ne_zero (by decide) 2 (by norm_num) _ D hD
  have hg : ∀ c : ℤ, c ≠ 0 → Generic P ![c] := by
    intro c hc
    rw [hgen]
    intro C hC i
    obtain ⟨F, -, hG⟩ := (hready C hC).facets
    have h0 := Barvinok.row_ne_zero C.rays hG.ne i
    intro h
    apply h0
    funext k
    fin_cases k
    simpa [hc] using h
  have hint : ((0 + 1 : ℕ) : ℤ) * P.length ≤ Piped.intMax := by
    have h1 := Brion.c71_barvinok N hN hR 1 le_rfl .dual (fun C => C.vertex) segCones D hD (fun _ => 0) (by decide +kernel)
    have h2 : D.length ≤ 2 := h1.trans (by decide)
    have h3 : (2 : ℤ) ≤ Piped.intMax := by decide
    rw [hlen]
    push_cast
    omega
  have hu : Used P (signed false (signed false ![-3])) (fun _ => []) 0 ![-3] :=
    ⟨rfl, hg (-3) (by decide), fun j hj => absurd hj (Nat.not_lt_zero j)⟩
  obtain ⟨⟨size, hsize⟩, h2⟩ := (h hint (fun _ => ![1]) 0 (hg 1 one_ne_zero) 1 (by norm_num)).2 (by decide) (fun _ => []) 0 ![-3] hu
  let H : Hashing := ⟨size + 1, Nat.succ_pos _, fun _ => 0, fun _ => Nat.succ_pos _⟩
  obtain ⟨K, F, h3⟩ := h2 H
  rcases h3 1 K F (by norm_num) le_rfl le_rfl with ⟨x, v, number, e, hnum⟩ | ⟨-, hc⟩
  · cases number with
    | none => exact absurd rfl (hnum.1 rfl)
    | some number =>
      have he : optimizeReduced (k := 0) N X (fun C => C.vertex) 2 segCones out p B ![-3] false ![5, 2] 1 (fun _ => ![1]) H 1 (fun _ => []) K F =
          .ok (.optimum (Preprocess.projectingUp p B x) (inner ![5, 2] (Preprocess.projectingUp p B x)) (some number)) := by
        unfold optimizeReduced
        rw [e]
        rfl
      obtain ⟨o1, o2, -⟩ := c79_equations (k := 0) (by simp [ineqs]) (by decide) (Or.inr independent) hrun N hN X (fun C => C.vertex) 2 (by norm_num) _ hS segCones hne hvs hT
        1 _ H 1 _ K F _ _ _ he
      exact ⟨out, p, B, N, H, K, F, _, _, number, hN, hrun, he, o1, o2⟩
  · exact absurd hc (hsize H (Nat.le_succ size))

end EquExample

end Verif.Digging
