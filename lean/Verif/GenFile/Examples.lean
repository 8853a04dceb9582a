import Verif.GenFile.Props
import Verif.Brion.Example

/-!
# The generating function files of `count`: concrete cases (C82)
-/

namespace Verif.GenFile

open Verif.Barvinok (Cone Mat Vec Ntl Variant rel row_ne_zero)
open Verif.Barvinok.Spec
open Verif.ExpSubst
open Verif.PolySubst
open Verif.Brion

/-- The triangle `x, y ≥ 0`, `x + 2 y ≤ 2`: both files are written, and are the generating function of its four lattice points. -/
theorem triangle_files (X : Smith.Xgcd) : ∃ (N : Ntl 2) (text body : List Char) (R R' : List (Vec 2)),
    countRat N X .dual (fun C => C.vertex) 1 2 Brion.Triangle.cones = .ok text ∧ IsGenFun text R [![0, 0], ![1, 0], ![2, 0], ![0, 1]] ∧
    countMaple N X .dual (fun C => C.vertex) 1 2 Brion.Triangle.cones = .ok ("gF:=".toList ++ body ++ ";\n".toList) ∧
      IsGenFun body R' [![0, 0], ![1, 0], ![2, 0], ![0, 1]] := by
  obtain ⟨N, hN, hR⟩ := Barvinok.reduces_satisfiable 2
  have hsv := shortVectors_dim_le_four (by decide) N hN hR
  obtain ⟨text, R, h1, h2⟩ := c82_rat_dual (m := 1) N hN hsv X (fun C => C.vertex) 1 le_rfl (by decide) 2 (by decide) _ _ _ Brion.Triangle.lattice _
    (by simp [Brion.Triangle.cones]) Brion.Triangle.vertices Brion.Triangle.triangulations
  obtain ⟨body, R', h3, h4⟩ := c82_maple_dual (m := 1) N hN hsv X (fun C => C.vertex) 1 le_rfl (by decide) 2 (by decide) _ _ _ Brion.Triangle.lattice _
    (by simp [Brion.Triangle.cones]) Brion.Triangle.vertices Brion.Triangle.triangulations
  exact ⟨N, text, body, R, R', h1, h2, h3, h4⟩

/-! ## Equations and dilation: `x = 1`, `0 ≤ y ≤ 1` -/

namespace Dilation

def eqs : Fin 1 → Preprocess.Row 2 := ![⟨-1, ![1, 0]⟩]
def ineqs : List (Preprocess.Row 2) := [⟨0, ![0, 1]⟩, ⟨1, ![0, -1]⟩]

theorem independent : Preprocess.Independent eqs := by
  refine Fintype.linearIndependent_iff.2 fun g hg i => ?_
  have := congrFun hg 0
  simp [eqs] at this
  rw [Fin.fin_one_eq_zero i]; exact this

/-- The reduced problem, as data. -/
def shape : Preprocess.Outcome 2 → Option (List (ℤ × List ℤ) × List ℤ)
  | .reduced 1 out p _ _ => some (out.map fun r => (r.b, List.ofFn r.a), List.ofFn p)
  | _ => none

/-- The rows of the reduced problem. -/
def segRows (c : ℤ) : List (Preprocess.Row 1) := [⟨0, ![1]⟩, ⟨c, ![-1]⟩]

theorem run (c : ℤ) (h : shape (Preprocess.preprocessProblem 10 eqs ineqs ![0, 0] c) = some ([(0, [1]), (c, [-1])], [1, 0])) :
    ∃ (B : Fin 1 → Fin 2 → ℤ) (newCost : Fin 1 → ℤ), Preprocess.preprocessProblem 10 eqs ineqs ![0, 0] c = .reduced 1 (segRows c) ![1, 0] B newCost := by
  generalize Preprocess.preprocessProblem 10 eqs ineqs ![0, 0] c = o at h ⊢
  unfold shape at h
  split at h
  · rename_i out p B w
    simp only [Option.some.injEq, Prod.mk.injEq] at h
    obtain ⟨h1, h2⟩ := h
    have hp : p = ![1, 0] := by
      simp at h2
      funext k; fin_cases k
      · exact h2.1
      · exact h2.2
    subst hp
    refine ⟨B, w, ?_⟩
    congr 1
    rcases out with _ | ⟨r1, _ | ⟨r2, _ | ⟨r3, out⟩⟩⟩
    · simp at h1
    · simp at h1
    · simp at h1
      obtain ⟨⟨a1, a2⟩, b1, b2⟩ := h1
      obtain ⟨x1, y1⟩ := r1
      obtain ⟨x2, y2⟩ := r2
      simp only at a1 a2 b1 b2
      subst a1 b1
      unfold segRows
      rw [show y1 = ![1] by funext k; fin_cases k; exact a2, show y2 = ![-1] by funext k; fin_cases k; exact b2]
    · simp at h1
  · cases h

def segCones (c : ℚ) : List ((Fin 1 → ℚ) × List (Mat 1)) := [(![c], [!![1]]), (![0], [!![-1]])]

def segA : Fin 2 → Vec 1 := ![![-1], ![1]]
def segB (c : ℚ) : Fin 2 → ℚ := ![0, c]

theorem seg_normals (c : ℤ) : Preprocess.rowNormals (segRows c) = segA := by
  funext i k
  change Fin 2 at i
  fin_cases i <;> fin_cases k <;> rfl

theorem seg_bounds (c : ℤ) : Preprocess.rowBounds (segRows c) = segB c := by
  funext i
  change Fin 2 at i
  fin_cases i <;> simp [Preprocess.rowBounds, segRows, segB]

theorem seg_mem (c : ℤ) (z : Vec 1) : (∀ i, ∑ k, ((segA i k : ℤ) : ℚ) * (z k : ℚ) ≤ segB c i) ↔ 0 ≤ z 0 ∧ z 0 ≤ c := by
  rw [Fin.forall_fin_two, Fin.sum_univ_one, Fin.sum_univ_one]
  have e0 : ((segA 0 0 : ℤ) : ℚ) * (z 0 : ℚ) ≤ segB c 0 ↔ -z 0 ≤ 0 := by
    rw [show ((segA 0 0 : ℤ) : ℚ) * (z 0 : ℚ) = ((-z 0 : ℤ) : ℚ) by simp [segA], show segB c 0 = ((0 : ℤ) : ℚ) by simp [segB]]
    exact Int.cast_le
  have e1 : ((segA 1 0 : ℤ) : ℚ) * (z 0 : ℚ) ≤ segB c 1 ↔ z 0 ≤ c := by
    rw [show ((segA 1 0 : ℤ) : ℚ) * (z 0 : ℚ) = ((z 0 : ℤ) : ℚ) by simp [segA], show segB c 1 = ((c : ℤ) : ℚ) by simp [segB]]
    exact Int.cast_le
  rw [e0, e1]
  omega

theorem eq_single (z : Vec 1) (c : ℤ) : z = ![c] ↔ z 0 = c := by
  constructor
  · intro h; rw [h]; rfl
  · intro h; funext k; fin_cases k; exact h

theorem seg_vertices (c : ℚ) (hc : 0 < c) : IsVertexList segA (segB c) ((segCones c).map (·.1)) := by
  refine ⟨?_, fun x => ?_⟩
  · simp only [segCones, List.map_cons, List.map_nil, List.nodup_cons, List.mem_singleton, List.not_mem_nil, not_false_eq_true, List.nodup_nil, and_self, and_true]
    intro h
    have := congrFun h 0
    simp at this
    exact hc.ne' this
  rw [Brion.extreme_iff]
  have hd0 : ∀ y : Fin 1 → ℝ, Barvinok.Spec.dot (segA 0) y = -y 0 := by intro y; simp [Barvinok.Spec.dot, segA]
  have hd1 : ∀ y : Fin 1 → ℝ, Barvinok.Spec.dot (segA 1) y = y 0 := by intro y; simp [Barvinok.Spec.dot, segA]
  have hs0 : ((segB c 0 : ℚ) : ℝ) = 0 := by simp [segB]
  have hs1 : ((segB c 1 : ℚ) : ℝ) = c := by simp [segB]
  have hP : (x ∈ Brion.Poly segA fun i => ((segB c i : ℚ) : ℝ)) ↔ 0 ≤ x 0 ∧ x 0 ≤ c := by
    show (∀ i, Barvinok.Spec.dot (segA i) x ≤ ((segB c i : ℚ) : ℝ)) ↔ _
    rw [Fin.forall_fin_two, hd0, hd1, hs0, hs1]
    constructor
    · rintro ⟨a, b⟩; constructor <;> linarith
    · rintro ⟨a, b⟩; constructor <;> linarith
  have hA : ∀ l : Fin 1 → ℝ, (∀ i, Barvinok.Spec.dot (segA i) x = ((segB c i : ℚ) : ℝ) → Barvinok.Spec.dot (segA i) l = 0) ↔
      (x 0 = 0 → l 0 = 0) ∧ (x 0 = c → l 0 = 0) := by
    intro l
    rw [Fin.forall_fin_two, hd0, hd1, hs0, hs1, hd0, hd1, neg_eq_zero, neg_eq_zero]
  rw [hP]
  simp only [hA]
  have hl : (∃ v ∈ (segCones c).map (·.1), x = fun k => (v k : ℝ)) ↔ x 0 = c ∨ x 0 = 0 := by
    have e : ∀ p : ℚ, (x = fun k => ((![p] : Fin 1 → ℚ) k : ℝ)) ↔ x 0 = (p : ℝ) := by
      intro p
      constructor
      · intro h; rw [h]; simp
      · intro h; funext k; fin_cases k; simpa using h
    simp only [segCones, List.map_cons, List.map_nil, List.mem_cons, List.not_mem_nil, or_false, exists_eq_or_imp, exists_eq_left, e]
    norm_num
  rw [hl]
  have hc' : (0 : ℝ) < c := by exact_mod_cast hc
  constructor
  · intro h
    refine ⟨by rcases h with h | h <;> rw [h] <;> constructor <;> linarith, fun l hl => ?_⟩
    funext k
    fin_cases k
    rcases h with h | h
    · exact hl.2 h
    · exact hl.1 h
  · rintro ⟨-, h⟩
    by_contra hn
    rw [not_or] at hn
    have := congrFun (h (fun _ => 1) ⟨fun h1 => absurd h1 hn.2, fun h1 => absurd h1 hn.1⟩) 0
    norm_num at this

theorem seg_triangulations (c : ℚ) (hc : 0 < c) : ∀ C ∈ segCones c, Triangulation C.2 (normal segA (segB c) C.1) := by
  have hact : ∀ (p : ℚ) (i : Fin 2), i ∈ Brion.active segA (segB c) ![p] ↔ (i = 0 ∧ p = 0) ∨ (i = 1 ∧ p = c) := by
    intro p i
    show ∑ k, (segA i k : ℚ) * ![p] k = segB c i ↔ _
    rw [Fin.sum_univ_one]
    fin_cases i
    · simp [segA, segB]
    · simp [segA, segB]
  intro C hC
  simp only [segCones, List.mem_cons, List.not_mem_nil, or_false] at hC
  rcases hC with rfl | rfl
  · refine Brion.Triangle.simple_vertex segA (segB c) _ _ (by decide +kernel) (fun _ => 1) (fun a b _ => Subsingleton.elim a b)
      (by intro k; fin_cases k; funext l; fin_cases l; rfl) fun i => ?_
    rw [hact]
    fin_cases i <;> simp [hc.ne']
  · refine Brion.Triangle.simple_vertex segA (segB c) _ _ (by decide +kernel) (fun _ => 0) (fun a b _ => Subsingleton.elim a b)
      (by intro k; fin_cases k; funext l; fin_cases l; rfl) fun i => ?_
    rw [hact]
    fin_cases i <;> simp [hc.ne]

theorem mem_solutions (c : ℤ) (z : Vec 2) : z ∈ Preprocess.solutions eqs ineqs c ↔ z 0 = c ∧ 0 ≤ z 1 ∧ z 1 ≤ c := by
  simp [Preprocess.solutions, eqs, ineqs, Preprocess.Row.eval]
  omega

theorem eq_pair (z : Vec 2) (c d : ℤ) : z = ![c, d] ↔ z 0 = c ∧ z 1 = d := by
  constructor
  · intro h; rw [h]; exact ⟨rfl, rfl⟩
  · rintro ⟨h, h'⟩; funext k; fin_cases k
    · exact h
    · exact h'

/-- Without dilation, the files are the generating function of the two points `(1, 0)` and `(1, 1)`. -/
theorem undilated_files (X : Smith.Xgcd) : ∃ (N : Ntl 1) (B : Fin 1 → Vec 2) (newCost : Fin 1 → ℤ) (text body : List Char) (R R' : List (Vec 2)),
    Preprocess.preprocessProblem 10 eqs ineqs ![0, 0] 1 = .reduced 1 (segRows 1) ![1, 0] B newCost ∧
    countRatProjected ![1, 0] B N X .dual (fun C => C.vertex) 1 2 (segCones 1) = .ok text ∧ IsGenFun text R [![1, 0], ![1, 1]] ∧
    countMapleProjected ![1, 0] B N X .dual (fun C => C.vertex) 1 2 (segCones 1) = .ok ("gF:=".toList ++ body ++ ";\n".toList) ∧
      IsGenFun body R' [![1, 0], ![1, 1]] := by
  obtain ⟨B, w, hrun⟩ := run 1 (by decide +kernel)
  obtain ⟨N, hN, hR⟩ := Barvinok.reduces_satisfiable 1
  have hsv := shortVectors_dim_le_four (by decide) N hN hR
  have hS : LatticePoints segA (segB (1 : ℤ)) [![0], ![1]] := ⟨by decide, fun z => by
    rw [seg_mem]
    simp only [List.mem_cons, List.not_mem_nil, or_false, eq_single]
    omega⟩
  have hTm : ∀ z : Vec 2, z ∈ [![1, 0], ![1, 1]] ↔ z ∈ Preprocess.solutions eqs ineqs 1 := fun z => by
    rw [mem_solutions]
    simp only [List.mem_cons, List.not_mem_nil, or_false, eq_pair]
    omega
  obtain ⟨⟨text, R, h1, h2⟩, body, R', h3, h4⟩ := c82_equations (k := 1) (m := 0) (by simp [ineqs]) (by decide) (Or.inr independent) hrun N hN hsv X (fun C => C.vertex) 2 (by decide)
    [![0], ![1]] (by rw [seg_normals, seg_bounds]; exact hS) (segCones 1) (by simp [segCones])
    (by rw [seg_normals, seg_bounds, Int.cast_one]; exact seg_vertices 1 (by norm_num)) (by rw [seg_normals, seg_bounds, Int.cast_one]; exact seg_triangulations 1 (by norm_num))
    [![1, 0], ![1, 1]] (by decide) hTm
  exact ⟨N, B, w, text, body, R, R', hrun, h1, h2, h3, h4⟩

/-- The two-fold dilation has the points `(2, 0)`, `(2, 1)` and `(2, 2)`; the file written is not their generating function. -/
theorem dilated_file_wrong (X : Smith.Xgcd) : ∃ (N : Ntl 1) (B : Fin 1 → Vec 2) (newCost : Fin 1 → ℤ) (text : List Char),
    Preprocess.preprocessProblem 10 eqs ineqs ![0, 0] 2 = .reduced 1 (segRows 2) ![1, 0] B newCost ∧
    (∀ z, z ∈ [![2, 0], ![2, 1], ![2, 2]] ↔ z ∈ Preprocess.solutions eqs ineqs 2) ∧
    countRatProjected ![1, 0] B N X .dual (fun C => C.vertex) 1 2 (segCones 2) = .ok text ∧ ∀ R, ¬ IsGenFun text R [![2, 0], ![2, 1], ![2, 2]] := by
  obtain ⟨B, w, hrun⟩ := run 2 (by decide +kernel)
  obtain ⟨N, hN, hR⟩ := Barvinok.reduces_satisfiable 1
  have hsv := shortVectors_dim_le_four (by decide) N hN hR
  have hS : LatticePoints segA (segB (2 : ℤ)) [![0], ![1], ![2]] := ⟨by decide, fun z => by
    rw [seg_mem]
    simp only [List.mem_cons, List.not_mem_nil, or_false, eq_single]
    omega⟩
  have hTm : ∀ z : Vec 2, z ∈ [![2, 0], ![2, 1], ![2, 2]] ↔ z ∈ Preprocess.solutions eqs ineqs 2 := fun z => by
      rw [mem_solutions]
      simp only [List.mem_cons, List.not_mem_nil, or_false, eq_pair]
      omega
  obtain ⟨text, h1, h2⟩ := c82_violated_dilation (k := 1) (m := 0) (dil := 2) (by decide) (by decide) (by simp [ineqs]) (by decide) (Or.inr independent) hrun N hN hsv X
    (fun C => C.vertex) 2 (by decide)
    [![0], ![1], ![2]] (by rw [seg_normals, seg_bounds]; exact hS) (segCones 2) (by simp [segCones])
    (by rw [seg_normals, seg_bounds, Int.cast_ofNat]; exact seg_vertices 2 (by norm_num)) (by rw [seg_normals, seg_bounds, Int.cast_ofNat]; exact seg_triangulations 2 (by norm_num))
    [![2, 0], ![2, 1], ![2, 2]] (by decide) hTm (by simp)
  exact ⟨N, B, w, text, hrun, hTm, h1, h2⟩

end Dilation

end Verif.GenFile
