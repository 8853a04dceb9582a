import Verif.Preprocess.Elim
import Mathlib.LinearAlgebra.Matrix.ToLinearEquiv
import Mathlib.Data.Set.Finite.Basic
import Mathlib.Tactic.NormNum
import Mathlib.Data.Real.Basic

/-!
# C67: eliminating the equations of a polyhedron
-/

namespace Verif.Preprocess

open Matrix

variable {n m : ℕ}

/-! ## What `eliminate` returns -/

section
variable (hmn : m ≤ n) {eqs : Fin m → Row n} {s : HState n m} (h : HermiteSpec (matOf eqs) (fun j => (eqs j).b) s)
include h

open scoped Classical in
theorem eliminate_eq (ineqs : List (Row n)) (cost : Fin n → ℤ) (dil : ℤ) :
    eliminate hmn ineqs cost dil s =
      if s.crk = m ∧ ¬ IntSolvable eqs then .count 0
      else match newRows (forward hmn s.S.transpose (List.finRange m) 0 s.rhs ᵥ* s.U) (latticeBasis s h.hn) dil ineqs with
        | none => .count 0
        | some out => checkRows out (forward hmn s.S.transpose (List.finRange m) 0 s.rhs ᵥ* s.U) (latticeBasis s h.hn)
            fun j => ∑ k, cost k * latticeBasis s h.hn j k := by
  unfold eliminate
  rw [dif_pos h.hn]
  have hd := det_ne_zero_iff hmn h
  by_cases hr : s.crk = m
  · have hc := check_iff hmn h hr
    by_cases hs : IntSolvable eqs
    · rw [if_neg (c := s.crk = m ∧ ¬ IntSolvable eqs) (fun hh => hh.2 hs)]
      exact if_neg fun hh => hh.2 (hc.2 hs)
    · rw [if_pos (c := s.crk = m ∧ ¬ IntSolvable eqs) ⟨hr, hs⟩]
      exact if_pos ⟨hd.2 hr, fun h2 => hs (hc.1 h2)⟩
  · rw [if_neg (c := s.crk = m ∧ ¬ IntSolvable eqs) (fun hh => hr hh.1)]
    exact if_neg fun hh => hr (hd.1 hh.1)

end

theorem preprocess_cases {fuel : ℕ} {eqs : Fin m → Row n} {ineqs : List (Row n)} {cost : Fin n → ℤ} {dil : ℤ} (hi : ineqs ≠ []) (hmn : m ≤ n) :
    preprocessProblem fuel eqs ineqs cost dil =
      match ihermite fuel (matOf eqs) (fun j => (eqs j).b) with
      | none => .fuel
      | some s => eliminate hmn ineqs cost dil s := by
  cases ineqs with
  | nil => exact absurd rfl hi
  | cons r rs =>
    simp only [preprocessProblem, dif_pos hmn]
    rfl

/-- **C67, lattice points.** Whenever the equations have an integer solution, or are independent, the returned inequalities describe the dilated polyhedron
in new coordinates: `z ↦ dil p + Σ z_j B_j` is a bijection from the integer points of the new polyhedron to those of the old one. -/
theorem c67_lattice_points {fuel : ℕ} {eqs : Fin m → Row n} {ineqs : List (Row n)} {cost : Fin n → ℤ} {dil : ℤ} (hi : ineqs ≠ []) (hmn : m ≤ n)
    (hs : IntSolvable eqs ∨ Independent eqs) {d : ℕ} {out : List (Row d)} {p : Fin n → ℤ} {B : Fin d → Fin n → ℤ} {newCost : Fin d → ℤ}
    (hrun : preprocessProblem fuel eqs ineqs cost dil = .reduced d out p B newCost) :
    Set.BijOn (lift dil p B) (feasible out) (solutions eqs ineqs dil) ∧ (∀ r ∈ out, ∃ j, r.a j ≠ 0) ∧
      (∀ j, (eqs j).eval 1 p = 0) ∧
      ∀ z, ∑ k, cost k * lift dil p B z k = dil * ∑ k, cost k * p k + ∑ j, newCost j * z j := by
  rw [preprocess_cases hi hmn] at hrun
  split at hrun
  · simp at hrun
  rename_i s hs'
  have h := ihermite_spec hs'
  rw [eliminate_eq hmn h] at hrun
  split at hrun
  · simp at hrun
  rename_i hc
  have hsol : IntSolvable eqs := by
    rcases hs with hs | hs
    · exact hs
    · by_contra hn
      exact hc ⟨independent_rank h hs, hn⟩
  split at hrun
  · simp at hrun
  rename_i out' hout
  cases out' with
  | nil => simp [checkRows] at hrun
  | cons r rs =>
    simp only [checkRows] at hrun
    cases hrun
    obtain ⟨h1, h2⟩ := newRows_some ineqs _ hout
    have hp := particular_solves hmn h hsol
    obtain ⟨hm, hinj, hsurj⟩ := lift_bijective h _ hp dil
    refine ⟨⟨?_, ?_, ?_⟩, h2, hp, ?_⟩
    · intro z hz
      exact ⟨hm (Set.mem_univ z), (h1 z).1 hz⟩
    · intro z _ w _ hzw
      exact hinj (Set.mem_univ z) (Set.mem_univ w) hzw
    · intro x hx
      obtain ⟨z, _, rfl⟩ := hsurj hx.1
      exact ⟨z, (h1 z).2 hx.2, rfl⟩
    · intro z
      have := lift_eval (forward hmn s.S.transpose (List.finRange m) 0 s.rhs ᵥ* s.U) (latticeBasis s h.hn) dil ⟨0, cost⟩ z
      simp only [Row.eval, mul_zero, zero_add] at this
      rw [this]
      congr 1
      exact Finset.sum_congr rfl fun j _ => mul_comm _ _

/-- A polyhedron whose equations leave a free variable and whose inequalities are all trivial has infinitely many integer points. -/
theorem infinite_of_empty {eqs : Fin m → Row n} {s : HState n m} (h : HermiteSpec (matOf eqs) (fun j => (eqs j).b) s)
    {p : Fin n → ℤ} (hp : ∀ j, (eqs j).eval 1 p = 0) {dil : ℤ} {ineqs : List (Row n)} (hr : s.crk < n)
    (hout : newRows p (latticeBasis s h.hn) dil ineqs = some []) : (solutions eqs ineqs dil).Infinite := by
  obtain ⟨h1, _⟩ := newRows_some ineqs _ hout
  obtain ⟨hm, hinj, _⟩ := lift_bijective h p hp dil
  have hinf : (Set.range (lift dil p (latticeBasis s h.hn))).Infinite := by
    have : Nonempty (Fin (n - s.crk)) := ⟨⟨0, by omega⟩⟩
    have hI : Infinite (Fin (n - s.crk) → ℤ) := inferInstance
    exact Set.infinite_range_of_injective fun z w hzw => hinj (Set.mem_univ z) (Set.mem_univ w) hzw
  refine hinf.mono ?_
  rintro x ⟨z, rfl⟩
  exact ⟨hm (Set.mem_univ z), (h1 z).1 (by simp)⟩

/-- **C67, reported counts.** For a polyhedron with finitely many integer points and fewer equations than variables, a number that is written
instead of an answer is the number of integer points: always if the equations have an integer solution, and for undilated independent equations. -/
theorem c67_reported_count {fuel : ℕ} {eqs : Fin m → Row n} {ineqs : List (Row n)} {cost : Fin n → ℤ} {dil : ℤ} (hi : ineqs ≠ []) (hmn : m < n)
    (hs : IntSolvable eqs ∨ (Independent eqs ∧ dil = 1)) (hfin : (solutions eqs ineqs dil).Finite) {k : ℕ}
    (hrun : preprocessProblem fuel eqs ineqs cost dil = .count k) : (solutions eqs ineqs dil).ncard = k := by
  rw [preprocess_cases hi hmn.le] at hrun
  split at hrun
  · simp at hrun
  rename_i s hs'
  have h := ihermite_spec hs'
  rw [eliminate_eq hmn.le h] at hrun
  by_cases hsol : IntSolvable eqs
  · rw [if_neg fun hc => hc.2 hsol] at hrun
    have hp := particular_solves hmn.le h hsol
    split at hrun
    · rename_i hnone
      cases hrun
      rw [Set.ncard_eq_zero hfin]
      by_contra hne
      obtain ⟨x, hx⟩ := Set.nonempty_iff_ne_empty.2 hne
      obtain ⟨z, _, rfl⟩ := (lift_bijective h _ hp dil).surjOn hx.1
      obtain ⟨r, hr, hlt⟩ := newRows_none ineqs hnone z
      exact absurd (hx.2 r hr) (not_le.2 hlt)
    · rename_i out hout
      cases out with
      | nil =>
        have hcrk : s.crk < n := lt_of_le_of_lt h.hm hmn
        exact absurd hfin (infinite_of_empty h hp hcrk hout)
      | cons r rs => simp [checkRows] at hrun
  · obtain ⟨hind, rfl⟩ : Independent eqs ∧ dil = 1 := by
      rcases hs with hs | hs
      · exact absurd hs hsol
      · exact hs
    rw [if_pos ⟨independent_rank h hind, hsol⟩] at hrun
    cases hrun
    rw [Set.ncard_eq_zero hfin]
    by_contra hne
    obtain ⟨x, hx⟩ := Set.nonempty_iff_ne_empty.2 hne
    exact hsol ⟨x, hx.1⟩

/-- **C67, termination.** With at most as many equations as variables the elimination ends for every input, with new inequalities or with a count,
and never with an access out of bounds. -/
theorem c67_ends (eqs : Fin m → Row n) {ineqs : List (Row n)} (cost : Fin n → ℤ) (dil : ℤ) (hi : ineqs ≠ []) (hmn : m ≤ n) :
    ∃ (N : ℕ) (o : Outcome n), (∀ fuel, N ≤ fuel → preprocessProblem fuel eqs ineqs cost dil = o) ∧
      (o = .count 0 ∨ ∃ d out p B c, o = .reduced d out p B c) := by
  obtain ⟨N, s, h⟩ := ihermite_ends (matOf eqs) (fun j => (eqs j).b)
  refine ⟨N, eliminate hmn ineqs cost dil s, fun fuel hf => ?_, ?_⟩
  · rw [preprocess_cases hi hmn, h fuel hf]
  · rw [eliminate_eq hmn (ihermite_spec (h N le_rfl))]
    split
    · exact Or.inl rfl
    · split
      · exact Or.inl rfl
      · rename_i out _
        cases out with
        | nil => exact Or.inl rfl
        | cons r rs => exact Or.inr ⟨_, _, _, _, _, rfl⟩

/-! ## No inequalities -/

theorem fdiv_sum {ι : Type*} [Fintype ι] (x : ι → ℤ) {d : ℤ} (hd : d ≠ 0) (h : ∑ i, x i = d * ∑ i, Int.fdiv (x i) d) (i : ι) :
    x i = d * Int.fdiv (x i) d := by
  have e : ∀ a : ℤ, Int.fmod a d = a - d * Int.fdiv a d := fun a => by have := Int.mul_fdiv_add_fmod a d; linarith
  have h0 : ∑ i, Int.fmod (x i) d = 0 := by
    simp only [e]
    rw [Finset.sum_sub_distrib, ← Finset.mul_sum, h, sub_self]
  have key : ∀ i, Int.fmod (x i) d = 0 := by
    rcases lt_or_gt_of_ne hd with hneg | hpos
    · have hle : ∀ a : ℤ, Int.fmod a d ≤ 0 := by
        intro a
        have h1 := Int.fmod_nonneg_of_pos (-a) (show 0 < -d by omega)
        rw [Int.neg_fmod_neg] at h1
        omega
      have := (Finset.sum_eq_zero_iff_of_nonpos fun i _ => hle (x i)).1 h0
      exact fun i => this i (Finset.mem_univ i)
    · have := (Finset.sum_eq_zero_iff_of_nonneg fun i _ => Int.fmod_nonneg_of_pos (x i) hpos).1 h0
      exact fun i => this i (Finset.mem_univ i)
  have := key i
  rw [e] at this
  linarith

theorem independent_det (eqs : Fin n → Row n) (hi : Independent eqs) : (Matrix.of fun i j : Fin n => -(eqs i).a j).det ≠ 0 := by
  intro h0
  obtain ⟨v, hv, hv0⟩ := Matrix.exists_vecMul_eq_zero_iff.2 h0
  apply hv
  funext i
  refine Fintype.linearIndependent_iff.1 hi v ?_ i
  funext k
  have := congrFun hv0 k
  simp only [vecMul, dotProduct, Matrix.of_apply, mul_neg, Finset.sum_neg_distrib, Pi.zero_apply, neg_eq_zero] at this
  simpa using this

/-- **C67, no inequalities left.** As many independent equations as variables: the number reported is the number of integer points. -/
theorem c67_no_inequalities {fuel : ℕ} {eqs : Fin n → Row n} (cost : Fin n → ℤ) (dil : ℤ) (hi : Independent eqs) :
    preprocessProblem fuel eqs [] cost dil = .count (solutions eqs [] 1).ncard := by
  set A : Matrix (Fin n) (Fin n) ℤ := Matrix.of fun i j : Fin n => -(eqs i).a j with hA
  have hdet : A.det ≠ 0 := independent_det eqs hi
  have hsolve : ∀ x : Fin n → ℤ, x ∈ solutions eqs [] 1 ↔ A *ᵥ x = fun i => (eqs i).b := by
    intro x
    simp only [solutions, Set.mem_ofPred_eq, List.not_mem_nil, false_imp_iff, implies_true, and_true]
    rw [funext_iff]
    refine forall_congr' fun j => ?_
    have e : (A *ᵥ x) j = -∑ k, (eqs j).a k * x k := by
      simp only [hA, mulVec, dotProduct, Matrix.of_apply, neg_mul, Finset.sum_neg_distrib]
    rw [e, Row.eval]
    constructor <;> intro h <;> linarith
  have hval : ∀ x : Fin n → ℤ, x ∈ solutions eqs [] 1 → (A.adjugate *ᵥ fun i => (eqs i).b) = A.det • x := by
    intro x hx
    rw [← (hsolve x).1 hx, mulVec_mulVec, adjugate_mul, smul_mulVec, one_mulVec]
  have hun : ∀ x ∈ solutions eqs [] 1, ∀ y ∈ solutions eqs [] 1, x = y := by
    intro x hx y hy
    have := (hval x hx).symm.trans (hval y hy)
    funext i
    have := congrFun this i
    simp only [Pi.smul_apply, smul_eq_mul] at this
    exact mul_left_cancel₀ hdet this
  have hrun : preprocessProblem fuel eqs [] cost dil =
      if ∑ i, (A.adjugate *ᵥ fun i => (eqs i).b) i = A.det * ∑ i, Int.fdiv ((A.adjugate *ᵥ fun i => (eqs i).b) i) A.det then .count 1 else .count 0 := by
    simp only [preprocessProblem, dite_true]
    rw [if_neg]
    · rfl
    · exact hdet
  rw [hrun]
  by_cases hne : ∃ x, x ∈ solutions eqs [] 1
  · obtain ⟨x, hx⟩ := hne
    have hone : (solutions eqs [] 1).ncard = 1 := Set.ncard_eq_one.2 ⟨x, Set.eq_singleton_iff_unique_mem.2 ⟨hx, fun y hy => hun y hy x hx⟩⟩
    rw [hone, if_pos]
    rw [hval x hx, Finset.mul_sum]
    refine Finset.sum_congr rfl fun i _ => ?_
    simp only [Pi.smul_apply, smul_eq_mul]
    rw [Int.mul_fdiv_cancel_left _ hdet]
  · have hemp : solutions eqs [] 1 = ∅ := Set.eq_empty_iff_forall_notMem.2 fun x hx => hne ⟨x, hx⟩
    rw [hemp, Set.ncard_empty, if_neg]
    intro hsum
    apply hne
    refine ⟨fun i => Int.fdiv ((A.adjugate *ᵥ fun i => (eqs i).b) i) A.det, (hsolve _).2 ?_⟩
    have h1 : (A.adjugate *ᵥ fun i => (eqs i).b) = A.det • fun i => Int.fdiv ((A.adjugate *ᵥ fun i => (eqs i).b) i) A.det := by
      funext i
      exact fdiv_sum _ hdet hsum i
    have h2 := congrArg (fun v => A *ᵥ v) h1
    simp only [mulVec_mulVec, mul_adjugate, smul_mulVec, one_mulVec, mulVec_smul] at h2
    funext j
    have h3 := congrFun h2 j
    simp only [Pi.smul_apply, smul_eq_mul] at h3
    exact (mul_left_cancel₀ hdet h3).symm

/-- **C67, no inequalities left and fewer independent equations than variables:** the message that the polytope is not bounded is right. -/
theorem c67_not_bounded {fuel : ℕ} {eqs : Fin m → Row n} (cost : Fin n → ℤ) (dil : ℤ) (hmn : m < n) :
    preprocessProblem fuel eqs [] cost dil = .notBounded ∧ ∃ v : Fin n → ℤ, v ≠ 0 ∧ ∀ j, ∑ k, (eqs j).a k * v k = 0 := by
  refine ⟨by simp only [preprocessProblem]; rw [dif_neg (by omega)], ?_⟩
  obtain ⟨N, s, hN⟩ := ihermite_ends (matOf eqs) (fun j => (eqs j).b)
  have h := ihermite_spec (hN N le_rfl)
  have hlt : s.crk < n := lt_of_le_of_lt h.hm hmn
  refine ⟨latticeBasis s h.hn ⟨0, by omega⟩, ?_, basis_kernel h _⟩
  intro h0
  have : Function.Injective (lift 1 (0 : Fin n → ℤ) (latticeBasis s h.hn)) := by
    intro z w hzw
    apply extend_inj h.hn
    apply unimodular_inj h.unimodular
    funext k
    have := congrFun hzw k
    simp only [lift] at this
    rw [← basis_sum s h.hn, ← basis_sum s h.hn]
    linarith
  have he : lift 1 (0 : Fin n → ℤ) (latticeBasis s h.hn) (Pi.single ⟨0, by omega⟩ 1) = lift 1 (0 : Fin n → ℤ) (latticeBasis s h.hn) 0 := by
    funext k
    simp only [lift, Pi.single_apply, ite_mul, one_mul, zero_mul, Finset.sum_ite_eq', Finset.mem_univ, if_true, Pi.zero_apply, mul_zero,
      Finset.sum_const_zero]
    rw [h0]; rfl
  have := congrFun (this he) ⟨0, by omega⟩
  simp at this

/-! ## Projecting up -/

/-- **C67, projecting up.** Without dilation, projecting up a solution is the inverse of the elimination. -/
theorem c67_project_up {d : ℕ} (p : Fin n → ℤ) (B : Fin d → Fin n → ℤ) (y : Fin d → ℤ) : projectingUp p B y = lift 1 p B y := by
  funext k; simp [projectingUp, lift]

/-- **Specification.** The real cone with integer apex and integer rays. -/
def realCone (point : Fin n → ℤ) (rays : List (Fin n → ℤ)) : Set (Fin n → ℝ) :=
  {x | ∃ c : Fin rays.length → ℝ, (∀ i, 0 ≤ c i) ∧ ∀ k, x k = point k + ∑ i, c i * (rays.get i k : ℝ)}

/-- The lift on real points, for an undilated problem. -/
def liftReal {d : ℕ} (p : Fin n → ℤ) (basis : Fin d → Fin n → ℤ) (z : Fin d → ℝ) : Fin n → ℝ := fun k => p k + ∑ j, z j * (basis j k : ℝ)

/-- **C67, projecting up cones.** Without dilation, the cone with the projected apex and rays is the image of the cone. -/
theorem c67_project_up_cone {d : ℕ} (p : Fin n → ℤ) (B : Fin d → Fin n → ℤ) (point : Fin d → ℤ) (rays : List (Fin d → ℤ)) :
    realCone (projectUp p B point rays).1 (projectUp p B point rays).2 = liftReal p B '' realCone point rays := by
  have hl : (projectUp p B point rays).2.length = rays.length := by simp [projectUp]
  have key : ∀ (c : Fin rays.length → ℝ) (k : Fin n), (((projectUp p B point rays).1 k : ℤ) : ℝ) +
      ∑ i : Fin rays.length, c i * (((projectUp p B point rays).2.get (Fin.cast hl.symm i) k : ℤ) : ℝ) =
      p k + ∑ j, ((point j : ℝ) + ∑ i, c i * (rays.get i j : ℝ)) * (B j k : ℝ) := by
    intro c k
    have e : ∀ i : Fin rays.length, (((projectUp p B point rays).2.get (Fin.cast hl.symm i) k : ℤ) : ℝ) = ∑ j, (B j k : ℝ) * (rays.get i j : ℝ) := by
      intro i; simp [projectUp]; rfl
    simp only [e]
    simp only [projectUp, Int.cast_add, Int.cast_sum, Int.cast_mul, add_mul, Finset.sum_add_distrib, Finset.mul_sum, Finset.sum_mul]
    rw [Finset.sum_comm, add_assoc]
    congr 1
    congr 1
    · exact Finset.sum_congr rfl fun j _ => mul_comm _ _
    · exact Finset.sum_congr rfl fun j _ => Finset.sum_congr rfl fun i _ => by ring
  ext x
  constructor
  · rintro ⟨c, hc, hx⟩
    refine ⟨fun j => (point j : ℝ) + ∑ i, c (Fin.cast hl.symm i) * (rays.get i j : ℝ), ⟨fun i => c (Fin.cast hl.symm i), fun i => hc _, fun _ => rfl⟩, ?_⟩
    funext k
    rw [hx k, liftReal, ← key fun i => c (Fin.cast hl.symm i)]
    congr 1
    exact Equiv.sum_comp (finCongr hl.symm) fun i => c i * (((projectUp p B point rays).2.get i k : ℤ) : ℝ)
  · rintro ⟨z, ⟨c, hc, hz⟩, rfl⟩
    refine ⟨fun i => c (Fin.cast hl i), fun i => hc _, ?_⟩
    intro k
    have : liftReal p B z k = p k + ∑ j, ((point j : ℝ) + ∑ i, c i * (rays.get i j : ℝ)) * (B j k : ℝ) := by
      simp only [liftReal, hz]
    rw [this, ← key c]
    congr 1
    exact Equiv.sum_comp (finCongr hl.symm) fun i => c (Fin.cast hl i) * (((projectUp p B point rays).2.get i k : ℤ) : ℝ)

/-! ## Where the program is wrong -/

/-- **Violation.** As many independent equations as variables and at least one inequality: the answer is always zero, whatever the inequalities are. -/
theorem c67_violated_point (eqs : Fin n → Row n) {ineqs : List (Row n)} (cost : Fin n → ℤ) (dil : ℤ) (hi : ineqs ≠ []) (hind : Independent eqs) :
    ∃ N, ∀ fuel, N ≤ fuel → preprocessProblem fuel eqs ineqs cost dil = .count 0 := by
  obtain ⟨N, s, h⟩ := ihermite_ends (matOf eqs) (fun j => (eqs j).b)
  refine ⟨N, fun fuel hf => ?_⟩
  rw [preprocess_cases hi le_rfl, h fuel hf]
  show eliminate le_rfl ineqs cost dil s = .count 0
  have hs := ihermite_spec (h N le_rfl)
  rw [eliminate_eq le_rfl hs]
  have hr := independent_rank hs hind
  split
  · rfl
  · split
    · rfl
    · rename_i out hout
      cases out with
      | nil => rfl
      | cons r rs =>
        obtain ⟨_, h2⟩ := newRows_some ineqs _ hout
        obtain ⟨j, _⟩ := h2 r (by simp)
        have := j.2
        omega

/-- **Violation.** Projecting up forgets the dilation: the image of any point lies on the undilated equations, so for a dilation by `dil ≠ 1` it violates every
dilated equation with a non-zero right-hand side. -/
theorem c67_violated_project_up {fuel : ℕ} {eqs : Fin m → Row n} {ineqs : List (Row n)} {cost : Fin n → ℤ} {dil : ℤ} (hi : ineqs ≠ []) (hmn : m ≤ n)
    (hs : IntSolvable eqs ∨ Independent eqs) {d : ℕ} {out : List (Row d)} {p : Fin n → ℤ} {B : Fin d → Fin n → ℤ} {newCost : Fin d → ℤ}
    (hrun : preprocessProblem fuel eqs ineqs cost dil = .reduced d out p B newCost) (hd : dil ≠ 1) (j : Fin m) (hb : (eqs j).b ≠ 0) (y : Fin d → ℤ) :
    (eqs j).eval dil (projectingUp p B y) ≠ 0 := by
  have h1 : (eqs j).eval 1 (projectingUp p B y) = 0 := by
    rw [preprocess_cases hi hmn] at hrun
    split at hrun
    · simp at hrun
    rename_i s hs'
    have h := ihermite_spec hs'
    rw [eliminate_eq hmn h] at hrun
    split at hrun
    · simp at hrun
    rename_i hc
    have hsol : IntSolvable eqs := by
      rcases hs with hs | hs
      · exact hs
      · by_contra hn
        exact hc ⟨independent_rank h hs, hn⟩
    split at hrun
    · simp at hrun
    rename_i out' hout
    cases out' with
    | nil => simp [checkRows] at hrun
    | cons r rs =>
      simp only [checkRows] at hrun
      cases hrun
      have := (lift_bijective h _ (particular_solves hmn h hsol) 1).mapsTo (Set.mem_univ y) j
      rw [c67_project_up]; exact this
  intro h2
  simp only [Row.eval] at h1 h2
  have : (dil - 1) * (eqs j).b = 0 := by linarith
  rcases mul_eq_zero.1 this with h3 | h3
  · exact hd (by omega)
  · exact hb h3

/-- The more equations than variables case reads beyond the end of the rows of the matrix. -/
theorem c67_violated_many_equations (fuel : ℕ) (eqs : Fin m → Row n) {ineqs : List (Row n)} (cost : Fin n → ℤ) (dil : ℤ) (hi : ineqs ≠ [])
    (hmn : n < m) : preprocessProblem fuel eqs ineqs cost dil = .crash := by
  cases ineqs with
  | nil => exact absurd rfl hi
  | cons r rs => simp only [preprocessProblem]; rw [dif_neg (by omega)]

end Verif.Preprocess
