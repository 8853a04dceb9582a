import Verif.Optimize.Rounding
import Verif.Regular.VertexList
import Mathlib.Analysis.Convex.KreinMilman
import Mathlib.Topology.Order.Compact

/-!
# The contracts of C77 can be kept
-/

namespace Verif.Optimize

open Verif.Barvinok (Vec)
open Verif.Barvinok.Spec (dot)
open Verif.Brion (Poly)

variable {n : ℕ}

theorem continuous_dot (f : Vec n) : Continuous (dot f) := by
  unfold dot
  fun_prop

/-- A file for cdd as a polyhedron. -/
theorem lpSol_eq (F : LpFile n) : F.Sol = Poly (fun i : Fin F.rows.length => -(F.rows[i]).2) (fun i => (((F.rows[i]).1 : ℚ) : ℝ)) := by
  ext x
  show (∀ r ∈ F.rows, _) ↔ ∀ i, _
  simp only [dot_neg_left]
  constructor
  · intro h i
    have := h _ (List.getElem_mem i.2)
    simp only [Fin.getElem_fin, Rat.cast_intCast]
    linarith
  · intro h r hr
    obtain ⟨i, hi, rfl⟩ := List.mem_iff_getElem.mp hr
    have := h ⟨i, hi⟩
    simp only [Fin.getElem_fin, Rat.cast_intCast] at this
    linarith

theorem isClosed_lpSol (F : LpFile n) : IsClosed F.Sol := by
  have : F.Sol = ⋂ r ∈ F.rows, {x | 0 ≤ (r.1 : ℝ) + dot r.2 x} := by
    ext x
    simp only [Set.mem_iInter]
    rfl
  rw [this]
  exact isClosed_biInter fun r _ => isClosed_le continuous_const (continuous_const.add (continuous_dot r.2))

/-- The LP relaxation has a rational solution. -/
theorem lp_exists (F : LpFile n) (hne : F.Sol.Nonempty) (hb : Bornology.IsBounded F.Sol) :
    ∃ x : Fin n → ℤ × ℤ, (∀ i, (x i).2 ≠ 0) ∧ pointR x ∈ F.Sol ∧ ∀ y ∈ F.Sol, dot F.objective.2 y ≤ dot F.objective.2 (pointR x) := by
  have hc : IsCompact F.Sol := Metric.isCompact_of_isClosed_isBounded (isClosed_lpSol F) hb
  obtain ⟨x0, hx0, hmax⟩ := hc.exists_isMaxOn hne (continuous_dot F.objective.2).continuousOn
  set A : Set (Fin n → ℝ) := {x ∈ F.Sol | dot F.objective.2 x = dot F.objective.2 x0} with hA
  have hAc : IsCompact A := hc.inter_right (isClosed_eq (continuous_dot _) continuous_const)
  obtain ⟨v, hv⟩ := hAc.extremePoints_nonempty ⟨x0, hx0, rfl⟩
  have hext : IsExtreme ℝ F.Sol A := by
    refine ⟨fun x hx => hx.1, ?_⟩
    intro x1 h1 x2 h2 x hx hseg
    obtain ⟨a, b, ha, hb', hab, rfl⟩ := hseg
    have e : dot F.objective.2 (a • x1 + b • x2) = dot F.objective.2 x0 := hx.2
    rw [Verif.Brion.dot_add', Verif.Brion.dot_smul', Verif.Brion.dot_smul'] at e
    have m1 : dot F.objective.2 x1 ≤ dot F.objective.2 x0 := hmax h1
    have m2 : dot F.objective.2 x2 ≤ dot F.objective.2 x0 := hmax h2
    refine ⟨h1, ?_⟩
    by_contra hne
    have hlt := lt_of_le_of_ne m1 hne
    have := mul_lt_mul_of_pos_left hlt ha
    have := mul_le_mul_of_nonneg_left m2 hb'.le
    have h' : dot F.objective.2 x0 = a * dot F.objective.2 x0 + b * dot F.objective.2 x0 := by rw [← add_mul, hab, one_mul]
    linarith
  have hvF : v ∈ F.Sol.extremePoints ℝ := hext.extremePoints_subset_extremePoints hv
  rw [lpSol_eq] at hvF
  obtain ⟨q, hq⟩ := Verif.Regular.vertex_rational _ _ _ hvF
  have hp : pointR (fun i => ((q i).num, ((q i).den : ℤ))) = v := by
    rw [hq]
    funext i
    show ((((q i).num : ℚ) / (((q i).den : ℤ) : ℚ) : ℚ) : ℝ) = _
    rw [Int.cast_natCast, Rat.num_div_den]
  have hvA : v ∈ A := hv.1
  refine ⟨fun i => ((q i).num, ((q i).den : ℤ)), fun i => ?_, ?_, ?_⟩
  · have h0 : ((q i).den : ℤ) ≠ 0 := by exact_mod_cast (q i).den_nz
    exact h0
  · rw [hp]; exact hvA.1
  · intro y hy
    rw [hp, hvA.2]
    exact hmax hy

open scoped Classical in
/-- An LP solver, and for one file the solution can be chosen. -/
theorem lpOk_satisfiable : ∃ lp : LpFile n → Fin n → ℤ × ℤ, LpOk lp := by
  refine ⟨fun F => if h : F.Sol.Nonempty ∧ Bornology.IsBounded F.Sol then (lp_exists F h.1 h.2).choose else fun _ => (0, 1), ?_⟩
  intro F _ h1 h2
  beta_reduce
  rw [dif_pos ⟨h1, h2⟩]
  exact (lp_exists F h1 h2).choose_spec

open scoped Classical in
theorem lpOk_choose (lp : LpFile n → Fin n → ℤ × ℤ) (h : LpOk lp) (F : LpFile n) (x : Fin n → ℤ × ℤ) (h1 : ∀ i, (x i).2 ≠ 0)
    (h2 : pointR x ∈ F.Sol) (h3 : ∀ y ∈ F.Sol, dot F.objective.2 y ≤ dot F.objective.2 (pointR x)) :
    LpOk fun G => if G = F then x else lp G := by
  intro G hG hn hb
  by_cases e : G = F
  · subst e
    simp only [if_true]
    exact ⟨h1, h2, h3⟩
  · simp only [if_neg e]
    exact h G hG hn hb

open scoped Classical in
theorem countOk_satisfiable : ∃ count : LatteFile n → Option ℤ, CountOk count := by
  refine ⟨fun F => if F.Sol = ∅ then none else some ((Lattice F.Sol).ncard : ℤ), ?_⟩
  intro F _ _
  refine ⟨fun h => if_pos h, fun h => if_neg h.ne_empty⟩

/-- Programs that keep the contracts and give prescribed solutions for the two LP relaxations. -/
theorem tools_exist (eqs ineqs : List (Row n)) (cost : Vec n) (hc : cost ≠ 0) (x y : Fin n → ℤ × ℤ) (hx : ∀ i, (x i).2 ≠ 0) (hy : ∀ i, (y i).2 ≠ 0)
    (hxP : pointR x ∈ Feasible eqs ineqs) (hyP : pointR y ∈ Feasible eqs ineqs)
    (hxm : ∀ z ∈ Feasible eqs ineqs, dot cost z ≤ dot cost (pointR x)) (hym : ∀ z ∈ Feasible eqs ineqs, dot cost (pointR y) ≤ dot cost z) :
    ∃ T : Tools n, LpOk T.lp ∧ CountOk T.count ∧ T.lp (lpFile eqs ineqs cost) = x ∧ T.lp (lpFile eqs ineqs (-cost)) = y := by
  classical
  obtain ⟨lp, hlp⟩ := lpOk_satisfiable (n := n)
  obtain ⟨count, hcount⟩ := countOk_satisfiable (n := n)
  have h1 := lpOk_choose lp hlp (lpFile eqs ineqs (-cost)) y hy (by rw [lpFile_sol]; exact hyP) (by
    rw [lpFile_sol]
    intro z hz
    show dot (-cost) z ≤ dot (-cost) (pointR y)
    rw [dot_neg_left, dot_neg_left]
    linarith [hym z hz])
  have h2 := lpOk_choose _ h1 (lpFile eqs ineqs cost) x hx (by rw [lpFile_sol]; exact hxP) (by
    rw [lpFile_sol]
    exact hxm)
  refine ⟨⟨_, count⟩, h2, hcount, ?_, ?_⟩
  · exact if_pos rfl
  · have hne : lpFile eqs ineqs (-cost) ≠ lpFile eqs ineqs cost := by
      intro h
      have h' := congrArg (fun F => F.objective.2) h
      have h'' : -cost = cost := h'
      apply hc
      funext i
      have := congrFun h'' i
      simp only [Pi.neg_apply, Pi.zero_apply] at this ⊢
      omega
    exact (if_neg hne).trans (if_pos rfl)

end Verif.Optimize
