import Verif.Whole.Spec
import Verif.CddV.Count
import Verif.Ti2.Exists
import Verif.Preprocess.EndToEnd
import Mathlib.LinearAlgebra.Matrix.ToLinearEquiv
import Mathlib.LinearAlgebra.Dimension.Finite
import Mathlib.Order.Interval.Finset.Basic
import Mathlib.Data.Pi.Interval

/-!
# C91: bounded polyhedra stay bounded, and what is counted for a list of inequalities
-/

namespace Verif.Whole

open Verif.Barvinok Verif.Barvinok.Spec Verif.Ti2 Verif.Brion Verif.ExpSubst Verif.Preprocess Matrix

variable {n m : ℕ}

/-- A polyhedron without directions of recession is bounded. -/
theorem bounded_of_directions (ineqs : List (ℤ × Vec n)) (h : ∀ y : Fin n → ℝ, (∀ q ∈ ineqs, 0 ≤ dot q.2 y) → y = 0) :
    Bornology.IsBounded (Polyhedron ineqs) := by
  have hnl : NoLine ineqs := fun y hy => h y fun q hq => (hy q hq).ge
  obtain ⟨alg, ha⟩ := raysOk_satisfiable
  have hr : IsRayList (Hom ineqs) (alg _ _ (vertexMatrix ineqs) (vertexBits ineqs.length n)).1 (alg _ _ (vertexMatrix ineqs) (vertexBits ineqs.length n)).2 := ha _ _ _ _
  refine bounded_of_flag hnl hr fun hf => ?_
  obtain ⟨y, hy, h0⟩ := (flag_iff hnl hr).1 hf
  exact hy (h y h0)

/-- A bounded set contains finitely many integer points. -/
theorem finite_of_bounded {A : Set (Fin n → ℝ)} (hA : Bornology.IsBounded A) : {z : Fin n → ℤ | (fun k => (z k : ℝ)) ∈ A}.Finite := by
  obtain ⟨R, hR⟩ := isBounded_iff_forall_norm_le.1 hA
  refine (Set.finite_Icc (fun _ => -⌈R⌉ : Fin n → ℤ) fun _ => ⌈R⌉).subset fun z hz => ?_
  have h := hR _ hz
  have hk : ∀ k, |(z k : ℝ)| ≤ R := fun k => le_trans (norm_le_pi_norm (fun k => (z k : ℝ)) k) h
  refine ⟨fun k => ?_, fun k => ?_⟩
  · have h1 := (abs_le.1 (hk k)).1
    have h2 := Int.le_ceil R
    have : (-⌈R⌉ : ℝ) ≤ z k := by linarith
    exact_mod_cast this
  · have h1 := (abs_le.1 (hk k)).2
    have h2 := Int.le_ceil R
    have : (z k : ℝ) ≤ ⌈R⌉ := by linarith
    exact_mod_cast this

/-! ## Equations and inequalities together -/

/-- The rows as inequalities for the geometric theorems. -/
def pairs (rows : List (Row n)) : List (ℤ × Vec n) := rows.map fun r => (r.b, r.a)

/-- Equations and inequalities as inequalities. -/
def both (E I : List (Row n)) : List (ℤ × Vec n) := pairs E ++ (E.map fun r => (-r.b, -r.a)) ++ pairs I

theorem mem_both (E I : List (Row n)) (x : Fin n → ℝ) :
    x ∈ Polyhedron (both E I) ↔ (∀ r ∈ E, (r.b : ℝ) + dot r.a x = 0) ∧ ∀ r ∈ I, 0 ≤ (r.b : ℝ) + dot r.a x := by
  have hneg : ∀ r : Row n, ((-r.b : ℤ) : ℝ) + dot (-r.a) x = -((r.b : ℝ) + dot r.a x) := by
    intro r
    unfold dot
    push_cast [Pi.neg_apply]
    simp only [neg_mul, Finset.sum_neg_distrib]
    ring
  show (∀ q ∈ both E I, 0 ≤ (q.1 : ℝ) + dot q.2 x) ↔ _
  unfold both pairs
  simp only [List.mem_append, List.mem_map, or_imp, forall_and, forall_exists_index, and_imp, forall_apply_eq_imp_iff₂, hneg]
  constructor
  · rintro ⟨⟨h1, h2⟩, h3⟩
    exact ⟨fun r hr => le_antisymm (by linarith [h2 r hr]) (h1 r hr), h3⟩
  · rintro ⟨h1, h3⟩
    exact ⟨⟨fun r hr => (h1 r hr).ge, fun r hr => by rw [h1 r hr, neg_zero]⟩, h3⟩

theorem dir_both (E I : List (Row n)) (y : Fin n → ℝ) :
    (∀ q ∈ both E I, 0 ≤ dot q.2 y) ↔ (∀ r ∈ E, dot r.a y = 0) ∧ ∀ r ∈ I, 0 ≤ dot r.a y := by
  have hneg : ∀ r : Row n, dot (-r.a) y = -dot r.a y := by
    intro r
    unfold dot
    simp [Finset.sum_neg_distrib]
  unfold both pairs
  simp only [List.mem_append, List.mem_map, or_imp, forall_and, forall_exists_index, and_imp, forall_apply_eq_imp_iff₂, hneg]
  constructor
  · rintro ⟨⟨h1, h2⟩, h3⟩
    exact ⟨fun r hr => le_antisymm (by linarith [h2 r hr]) (h1 r hr), h3⟩
  · rintro ⟨h1, h3⟩
    exact ⟨⟨fun r hr => (h1 r hr).ge, fun r hr => by rw [h1 r hr, neg_zero]⟩, h3⟩

/-- A bounded and non-empty polyhedron has no direction. -/
theorem no_direction_of_bounded {ineqs : List (ℤ × Vec n)} (hb : Bornology.IsBounded (Polyhedron ineqs)) (hne : (Polyhedron ineqs).Nonempty) (y : Fin n → ℝ)
    (hy : ∀ q ∈ ineqs, 0 ≤ dot q.2 y) : y = 0 := by
  by_contra h0
  obtain ⟨x, hx⟩ := hne
  exact unbounded_of_recession ⟨h0, hy⟩ hx hb

/-! ## The elimination -/

theorem newRows_mem {d : ℕ} {p : Fin n → ℤ} {basis : Fin d → Fin n → ℤ} {dil : ℤ} (ineqs : List (Row n)) :
    ∀ out, newRows p basis dil ineqs = some out → ∀ r ∈ ineqs, newRow p basis dil r ∈ out ∨ ∀ j, (newRow p basis dil r).a j = 0 := by
  induction ineqs with
  | nil => intro out _ r hr; cases hr
  | cons r rs ih =>
    intro out h r' hr'
    rw [newRows] at h
    split at h
    · cases h
    · split at h
      · cases h
      · rename_i out' ho
        have hzero : ∑ j, |(newRow p basis dil r).a j| = 0 → ∀ j, (newRow p basis dil r).a j = 0 := fun h0 j =>
          abs_eq_zero.1 ((Finset.sum_eq_zero_iff_of_nonneg fun j _ => abs_nonneg _).1 h0 j (Finset.mem_univ j))
        rcases List.mem_cons.1 hr' with rfl | hr'
        · split at h
          · obtain rfl := Option.some.inj h
            exact Or.inl List.mem_cons_self
          · rename_i h0
            exact Or.inr (hzero (not_not.1 h0))
        · split at h
          · obtain rfl := Option.some.inj h
            exact (ih out' ho r' hr').imp_left (List.mem_cons_of_mem _)
          · obtain rfl := Option.some.inj h
            exact ih out' ho r' hr'

theorem latticeBasis_real (s : HState n m) (hr : s.crk ≤ n) (hu : IsUnit s.U.det) (z : Fin (n - s.crk) → ℝ)
    (h : ∀ k, ∑ j, z j * (latticeBasis s hr j k : ℝ) = 0) : z = 0 := by
  have hd : (s.U.map (Int.cast : ℤ → ℝ)).det ≠ 0 := by
    have e : (s.U.map (Int.cast : ℤ → ℝ)).det = ((s.U.det : ℤ) : ℝ) := ((Int.castRingHom ℝ).map_det s.U).symm
    rw [e]
    exact_mod_cast hu.ne_zero
  have hv : (fun i : Fin n => if h : s.crk ≤ i.val then z ⟨i.val - s.crk, by have := i.2; omega⟩ else 0) = 0 := by
    refine Matrix.eq_zero_of_vecMul_eq_zero hd (funext fun k => ?_)
    rw [Matrix.vecMul, dotProduct]
    refine Eq.trans ?_ (h k)
    symm
    apply Finset.sum_of_injOn (fun j : Fin (n - s.crk) => (⟨s.crk + j.val, by omega⟩ : Fin n))
    · intro a _ b _ hab
      simp only [Fin.mk.injEq] at hab
      exact Fin.ext (by omega)
    · intro a _; simp
    · intro i _ hi
      have : ¬ s.crk ≤ i.val := by
        intro hle
        refine hi ⟨⟨i.val - s.crk, by have := i.2; omega⟩, by simp, Fin.ext ?_⟩
        show s.crk + (i.val - s.crk) = i.val
        omega
      rw [dif_neg this, zero_mul]
    · intro j _
      rw [dif_pos (by show s.crk ≤ s.crk + j.val; omega)]
      simp [latticeBasis]
  funext j
  have := congrFun hv ⟨s.crk + j.val, by omega⟩
  simpa using this

/-- The polyhedron after the elimination has no direction of recession if the one before has none. -/
theorem reduced_directions {fuel : ℕ} {eqs : Fin m → Row n} {ineqs : List (Row n)} {cost : Fin n → ℤ} {dil : ℤ} (hi : ineqs ≠ []) (hmn : m ≤ n)
    (h0 : ∀ y : Fin n → ℝ, (∀ j, dot (eqs j).a y = 0) → (∀ r ∈ ineqs, 0 ≤ dot r.a y) → y = 0)
    {d : ℕ} {out : List (Row d)} {p : Fin n → ℤ} {B : Fin d → Fin n → ℤ} {newCost : Fin d → ℤ}
    (hrun : preprocessProblem fuel eqs ineqs cost dil = .reduced d out p B newCost) (z : Fin d → ℝ) (hz : ∀ r ∈ out, 0 ≤ dot r.a z) : z = 0 := by
  rw [preprocess_cases hi hmn] at hrun
  split at hrun
  · simp at hrun
  rename_i s hs'
  have h := ihermite_spec hs'
  rw [eliminate_eq hmn h] at hrun
  split at hrun
  · simp at hrun
  split at hrun
  · simp at hrun
  rename_i out' hout
  cases out' with
  | nil => simp [checkRows] at hrun
  | cons r rs =>
    simp only [checkRows] at hrun
    cases hrun
    have hcomm : ∀ f : Vec n, dot f (fun k => ∑ j, z j * (latticeBasis s h.hn j k : ℝ)) = ∑ j, z j * ((∑ k, f k * latticeBasis s h.hn j k : ℤ) : ℝ) := by
      intro f
      unfold dot
      simp only [Finset.mul_sum, Int.cast_sum, Int.cast_mul]
      rw [Finset.sum_comm]
      exact Finset.sum_congr rfl fun j _ => Finset.sum_congr rfl fun k _ => by ring
    have key := h0 (fun k => ∑ j, z j * (latticeBasis s h.hn j k : ℝ)) (fun j => by
      rw [hcomm]
      refine Finset.sum_eq_zero fun i _ => ?_
      rw [basis_kernel h i j]
      simp) (fun r' hr' => by
      rw [hcomm]
      rcases newRows_mem ineqs _ hout r' hr' with hm | hm
      · have := hz _ hm
        unfold dot newRow at this
        refine le_of_le_of_eq this (Finset.sum_congr rfl fun j _ => mul_comm _ _)
      · have hm' : ∀ j, ∑ k, r'.a k * latticeBasis s h.hn j k = 0 := hm
        simp [hm'])
    exact latticeBasis_real s h.hn h.unimodular z fun k => congrFun key k

/-! ## Counting for a list of inequalities -/

theorem mem_feasible (rows : List (Row n)) (z : Fin n → ℤ) : z ∈ feasible rows ↔ ∀ q ∈ pairs rows, 0 ≤ q.1 + ∑ k, q.2 k * z k := by
  unfold feasible pairs Row.eval
  simp

theorem feasible_list (rows : List (Row n)) (hb : Bornology.IsBounded (Polyhedron (pairs rows))) :
    ∃ S : List (Vec n), S.Nodup ∧ (∀ z, z ∈ S ↔ ∀ q ∈ pairs rows, 0 ≤ q.1 + ∑ k, q.2 k * z k) ∧ S.length = (feasible rows).ncard := by
  classical
  have hf := finite_of_bounded hb
  have hmem : ∀ z : Vec n, z ∈ hf.toFinset.toList ↔ ∀ q ∈ pairs rows, 0 ≤ q.1 + ∑ k, q.2 k * z k := by
    intro z
    rw [Finset.mem_toList, Set.Finite.mem_toFinset]
    exact CddV.lattice_mem z
  refine ⟨hf.toFinset.toList, Finset.nodup_toList _, hmem, ?_⟩
  rw [Finset.length_toList, ← Set.ncard_eq_toFinset_card _ hf]
  congr 1
  ext z
  rw [mem_feasible, ← hmem, Finset.mem_toList, Set.Finite.mem_toFinset]

theorem countRows_number {T : Tools} (hT : T.Ok) {L : Limits} (h0 : L.maxDet ≠ 0) (hmax : L.maxDet ≤ Piped.intMax) (hfuel : L.maxDet < L.fuel)
    {d : ℕ} (rows : List (Row d)) (hb : Bornology.IsBounded (Polyhedron (pairs rows))) {r : ℤ} (h : countRows T L d rows = .number r) :
    r = (feasible rows).ncard := by
  cases d with
  | zero => cases h
  | succ d =>
    obtain ⟨S, hS, hmem, hlen⟩ := feasible_list rows hb
    rw [← hlen]
    have hc := hT.vertices (d + 1) (pairs rows)
    unfold countRows at h
    change (match CddV.countCdd (T.vertices (d + 1) (pairs rows)).1 (T.vertices (d + 1) (pairs rows)).2 T.rays (T.ntl d) T.xgcd (T.irr d) L.maxDet L.fuel (pairs rows)
      L.tries (T.triangulate d) (T.guess d) with | .number k => Ending.number k | .noNumber => .noNumber | .stop => .stop | .failed e => .failed e | .undefined => .undefined)
        = _ at h
    by_cases h2 : 2 ≤ (T.vertices (d + 1) (pairs rows)).1.length
    · rw [CddV.countCdd_eq hc hb h2] at h
      cases ht : Regular.triangulateAndCount (T.ntl d) T.xgcd .dual (T.irr d) L.maxDet L.fuel
        (((T.vertices (d + 1) (pairs rows)).1.map CddV.rowPoint).map fun v => (v, computeTight (pairs rows) v [])) L.tries (T.triangulate d) (T.guess d) with
      | error e => rw [ht] at h; cases h
      | ok k =>
        rw [ht] at h
        obtain rfl := Ending.number.inj h
        refine Regular.c75_count (T.ntl d) (hT.ntl d) T.xgcd (T.irr d) L.maxDet h0 hmax L.fuel hfuel (normals (pairs rows)) (sides (pairs rows)) S
          ⟨hS, fun z => by rw [hmem, lattice_iff]⟩ _ ?_ (Regular.normalRays_tight _ _) L.tries _ (hT.triangulate d) _ _ ht
        rw [List.map_map]
        exact (List.map_id _).symm ▸ hc.vertices (CddV.no_direction hc hb)
    · unfold CddV.countCdd at h
      rw [CddV.c88_few_vertices hc hb (by omega) S hS hmem] at h
      exact (Ending.number.inj h).symm

end Verif.Whole
