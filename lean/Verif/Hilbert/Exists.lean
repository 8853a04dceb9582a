import Verif.Hilbert.Props
import Mathlib.Data.Set.Finite.Lattice
import Mathlib.Order.Interval.Finset.Basic
import Mathlib.Data.Int.Interval
import Mathlib.Order.Interval.Set.Pi
import Mathlib.Data.Fintype.Pi

/-!
# C101: the contract can be met, and an example
-/

namespace Verif.Hilbert

open Verif.Barvinok (Vec Mat)
open Verif.Regular (listMat)

variable {m : ℕ}

/-- Every cone generated by integer vectors has a finite list of lattice points that generate all of them. -/
theorem exists_generators {n : ℕ} (rays : List (Vec n)) : ∃ l : List (Vec n), (∀ p ∈ l, InCone rays p) ∧ ∀ p, InCone rays p → SumOf {q | q ∈ l} p := by
  classical
  set B : Vec n := fun k => ∑ i : Fin rays.length, |rays.get i k| with hB
  have hfin : {q : Vec n | ∃ a : Fin rays.length → ℚ, (∀ i, 0 ≤ a i ∧ a i ≤ 1) ∧ toQ q = ∑ i, a i • toQ (rays.get i)}.Finite := by
    refine Set.Finite.subset (Set.Finite.pi' fun k : Fin n => Set.finite_Icc (-B k) (B k)) ?_
    rintro q ⟨a, ha, h⟩ k
    have hk := congrFun h k
    rw [Finset.sum_apply] at hk
    have : |(q k : ℚ)| ≤ ((B k : ℤ) : ℚ) := by
      change |toQ q k| ≤ _
      rw [hk, hB, Int.cast_sum]
      refine (Finset.abs_sum_le_sum_abs _ _).trans (Finset.sum_le_sum fun i _ => ?_)
      rw [Pi.smul_apply, smul_eq_mul, abs_mul, abs_of_nonneg (ha i).1, Int.cast_abs]
      exact mul_le_of_le_one_left (abs_nonneg _) (ha i).2
    have h2 : |q k| ≤ B k := by exact_mod_cast this
    exact abs_le.1 h2
  refine ⟨hfin.toFinset.toList, fun p hp => ?_, fun p hp => ?_⟩
  · rw [Finset.mem_toList, Set.Finite.mem_toFinset] at hp
    obtain ⟨a, ha, h⟩ := hp
    exact ⟨a, fun i => (ha i).1, h⟩
  · obtain ⟨a, ha, h⟩ := hp
    have mem : ∀ q : Vec n, (∃ a : Fin rays.length → ℚ, (∀ i, 0 ≤ a i ∧ a i ≤ 1) ∧ toQ q = ∑ i, a i • toQ (rays.get i)) →
        SumOf {q | q ∈ hfin.toFinset.toList} q := fun q hq =>
      AddSubmonoid.subset_closure (by rw [Set.mem_ofPred_eq, Finset.mem_toList, Set.Finite.mem_toFinset]; exact hq)
    have e : p = (p - ∑ i, ⌊a i⌋₊ • rays.get i) + ∑ i, ⌊a i⌋₊ • rays.get i := by simp
    rw [e]
    refine add_mem (mem _ ⟨fun i => Int.fract (a i), fun i => ⟨Int.fract_nonneg _, (Int.fract_lt_one _).le⟩, ?_⟩) (sum_mem fun i _ => nsmul_mem (mem _ ?_) _)
    · funext k
      have hk := congrFun h k
      rw [Finset.sum_apply] at hk ⊢
      have hs : ((∑ i, ⌊a i⌋₊ • rays.get i) k : ℤ) = ∑ i, (⌊a i⌋₊ : ℤ) * rays.get i k := by
        rw [Finset.sum_apply]
        exact Finset.sum_congr rfl fun i _ => by rw [Pi.smul_apply, nsmul_eq_mul]
      have hf : ∀ i, ((⌊a i⌋₊ : ℕ) : ℚ) = a i - Int.fract (a i) := fun i => by
        rw [Int.self_sub_fract, natCast_floor_eq_intCast_floor (ha i)]
      change (((p - ∑ i, ⌊a i⌋₊ • rays.get i) k : ℤ) : ℚ) = _
      rw [Pi.sub_apply, hs, Int.cast_sub, Int.cast_sum]
      change toQ p k - _ = _
      rw [hk, ← Finset.sum_sub_distrib]
      exact Finset.sum_congr rfl fun i _ => by rw [Int.cast_mul, Int.cast_natCast, hf, Pi.smul_apply, Pi.smul_apply, smul_eq_mul, smul_eq_mul]; unfold toQ; ring
    · refine ⟨Pi.single i 1, fun j => ?_, ?_⟩
      · by_cases hj : j = i
        · subst hj; simp
        · simp [Pi.single_eq_of_ne hj]
      · rw [Finset.sum_eq_single i]
        · simp
        · intro j _ hj; rw [Pi.single_eq_of_ne hj, zero_smul]
        · simp

/-- External parts that meet the contract, with zsolve never reaching the limit for the time. -/
theorem contract_satisfiable (m : ℕ) : ∃ T : Tools m, Contract T ∧ ∀ k c, T.zsolve k c ≠ none :=
  ⟨⟨fun _ => 0, fun _ => m + 1, fun _ c => some (exists_generators c).choose, fun _ c => [c]⟩,
    ⟨fun _ c l h => by cases h; exact (exists_generators c).choose_spec.1, fun _ c l h => by cases h; exact (exists_generators c).choose_spec.2,
      fun _ c c' h => by rw [List.mem_singleton.1 h]; exact fun r h => h, fun _ c p hp => ⟨c, by simp, hp⟩⟩, fun _ _ => by simp⟩

/-- The cone generated by (1,0) and (1,2). -/
def wedge : List (Vec 2) := [![1, 0], ![1, 2]]

theorem wedge_cone {p : Vec 2} (h : InCone wedge p) : 0 ≤ p 1 ∧ p 1 ≤ 2 * p 0 := by
  obtain ⟨a, ha, h⟩ := h
  have h0 := congrFun h 0
  have h1 := congrFun h 1
  have e : ∀ f : Fin wedge.length → Fin 2 → ℚ, ∀ k, (∑ i, f i) k = f ⟨0, by decide⟩ k + f ⟨1, by decide⟩ k := fun f k => by
    rw [Finset.sum_apply]; exact Fin.sum_univ_two (fun i : Fin 2 => f i k)
  rw [e] at h0 h1
  simp [toQ, wedge] at h0 h1
  have g0 := ha ⟨0, by decide⟩
  have g1 := ha ⟨1, by decide⟩
  constructor
  · have : (0 : ℚ) ≤ p 1 := by rw [h1]; positivity
    exact_mod_cast this
  · have g : 0 ≤ (show Fin 2 → ℚ from a) 0 := g0
    have : (p 1 : ℚ) ≤ 2 * p 0 := by rw [h0, h1]; change 0 ≤ _ at g; nlinarith [g]
    exact_mod_cast this

theorem wedge_piped {p : Vec 2} (h : Piped.InPiped (listMat wedge) 0 p) : ∃ a b : ℚ, 0 ≤ a ∧ a < 1 ∧ 0 ≤ b ∧ b < 1 ∧ (p 0 : ℚ) = a + b ∧ (p 1 : ℚ) = 2 * b := by
  obtain ⟨a, ha, h⟩ := h
  refine ⟨a 0, a 1, (ha 0).1, (ha 0).2, (ha 1).1, (ha 1).2, ?_, ?_⟩
  · have := h 0; simp [listMat, wedge] at this; exact this
  · have := h 1; simp [listMat, wedge] at this; rw [this]; ring

/-- With `--max-determinant-for-enumeration=3 --no-initial-triangulation` the file for the wedge is made of zero and (1,1): the ray (1,0), which is in the Hilbert basis, is missing, and zero is not in the
Hilbert basis. -/
theorem wedge_file (X : Smith.Xgcd) (T : Tools 1) (F : ℤ) : ∃ s, run X T ⟨F, 3, false⟩ 1 wedge = .ok s ∧ s.file.length = 2 ∧ 0 ∈ s.file ∧ ![1, 1] ∈ s.file ∧
    Irreducible wedge ![1, 0] ∧ ![1, 0] ∉ s.file := by
  have hdet : (listMat wedge).det = 2 := by decide +kernel
  obtain ⟨pts, h1, h2, h3, h4⟩ := piped_spec X wedge (by rw [hdet]; decide) (by rw [hdet]; decide)
  obtain ⟨i1, i2⟩ := insertAll_spec pts (s := ⟨[], [], 0⟩) ⟨fun v => by simp, List.nodup_nil⟩
  have hmem : ∀ x, x ∈ (insertAll (⟨[], [], 0⟩ : St 1) pts).file ↔ x ∈ pts := fun x => by rw [i2]; simp
  refine ⟨insertAll ⟨[], [], 0⟩ pts, ?_, ?_, ?_, ?_, ⟨ray_inCone (by simp [wedge]), by decide, fun x y hx hy e => ?_⟩, ?_⟩
  · rw [run, if_neg (by simp), handle, if_neg (by rw [hdet]; decide), if_neg (by rw [hdet]; decide), if_pos (by rw [hdet]; exact ⟨rfl, show |(2 : ℤ)| < 3 by decide⟩), h1]
    dsimp only
    rw [if_pos]
    intro p hp i
    obtain ⟨a, b, ha, ha1, hb, hb1, e0, e1⟩ := wedge_piped ((h4 p).1 hp)
    have k0 : (0 : ℚ) ≤ p 0 ∧ (p 0 : ℚ) < 2 := by rw [e0]; constructor <;> linarith
    have k1 : (0 : ℚ) ≤ p 1 ∧ (p 1 : ℚ) < 2 := by rw [e1]; constructor <;> linarith
    have l0 : 0 ≤ p 0 ∧ p 0 < 2 := by exact_mod_cast k0
    have l1 : 0 ≤ p 1 ∧ p 1 < 2 := by exact_mod_cast k1
    fin_cases i
    · simp only [Fin.zero_eta, abs_of_nonneg l0.1]; omega
    · simp only [Fin.mk_one, abs_of_nonneg l1.1]; omega
  · have := ((List.perm_ext_iff_of_nodup i1.nodup h2).2 hmem).length_eq
    rw [hdet] at h3
    rw [this]
    have : |(2 : ℤ)| = 2 := rfl
    omega
  · exact (hmem _).2 ((h4 _).2 ⟨0, fun i => ⟨le_rfl, one_pos⟩, fun k => by simp⟩)
  · refine (hmem _).2 ((h4 _).2 ⟨fun _ => 1 / 2, fun i => ⟨by norm_num, by norm_num⟩, fun k => ?_⟩)
    fin_cases k <;> simp [listMat, wedge] <;> norm_num
  · have hx' := wedge_cone hx
    have hy' := wedge_cone hy
    have e0 := congrFun e 0
    have e1 := congrFun e 1
    simp at e0 e1
    by_cases h : x 0 = 0
    · left; funext k; fin_cases k <;> simp <;> omega
    · right; funext k; fin_cases k <;> simp <;> omega
  · rw [hmem, h4]
    intro h
    obtain ⟨a, b, ha, ha1, hb, hb1, e0, e1⟩ := wedge_piped h
    simp at e0 e1
    linarith

end Verif.Hilbert
