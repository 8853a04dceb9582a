import Verif.Optimize.Contracts
import Mathlib.Tactic.NormNum
import Mathlib.Tactic.FinCases
import Mathlib.Tactic.IntervalCases

/-!
# C77: cases that meet the hypotheses, and wrong answers by rounding
-/

namespace Verif.Optimize

open Verif.Barvinok (Vec)
open Verif.Barvinok.Spec (dot)

/-- Segments on a line: `lo ≤ d x ≤ hi`. -/
abbrev segment (lo hi d : ℤ) : List (Row 1) := [(-lo, ![d]), (hi, ![-d])]

theorem mem_segment (lo hi d : ℤ) (x : Fin 1 → ℝ) : x ∈ Feasible [] (segment lo hi d) ↔ (lo : ℝ) ≤ d * x 0 ∧ (d : ℝ) * x 0 ≤ hi := by
  simp only [Feasible, segment, dot, Set.mem_ofPred_eq, List.not_mem_nil, List.mem_cons, Fin.sum_univ_one]
  constructor
  · rintro ⟨-, h⟩
    have h1 := h _ (.inl rfl)
    have h2 := h _ (.inr (.inl rfl))
    push_cast [Matrix.cons_val_fin_one] at h1 h2
    constructor <;> linarith
  · rintro ⟨h1, h2⟩
    refine ⟨by simp, ?_⟩
    rintro r (rfl | rfl | h)
    · push_cast [Matrix.cons_val_fin_one]; linarith
    · push_cast [Matrix.cons_val_fin_one]; linarith
    · exact h.elim

theorem bounded_segment (lo hi d : ℤ) (hd : 0 < d) : Bornology.IsBounded (Feasible [] (segment lo hi d)) := by
  have hd' : (0 : ℝ) < d := by exact_mod_cast hd
  refine (Metric.isBounded_Icc (fun _ : Fin 1 => (lo : ℝ) / d) (fun _ => (hi : ℝ) / d)).subset ?_
  intro x hx
  rw [mem_segment] at hx
  constructor
  · intro i
    fin_cases i
    show _ ≤ x 0
    rw [div_le_iff₀ hd']
    linarith [hx.1]
  · intro i
    fin_cases i
    show x 0 ≤ _
    rw [le_div_iff₀ hd']
    linarith [hx.2]

theorem dot_one (c : ℤ) (x : Fin 1 → ℝ) : dot ![c] x = c * x 0 := by simp [dot]

theorem pointR_one (a b : ℤ) : pointR (n := 1) ![(a, b)] 0 = (a : ℝ) / b := by simp [pointR, point]

theorem greatest_segment (lo hi d c : ℤ) (hd : 0 < d) (hc : 0 ≤ c) (h : lo ≤ hi) :
    IsGreatest (dot ![c] '' Feasible [] (segment lo hi d)) ((c * hi / d : ℚ) : ℝ) := by
  have hd' : (0 : ℝ) < d := by exact_mod_cast hd
  have hc' : (0 : ℝ) ≤ c := by exact_mod_cast hc
  have h' : (lo : ℝ) ≤ hi := by exact_mod_cast h
  constructor
  · refine ⟨fun _ => (hi : ℝ) / d, ?_, ?_⟩
    · rw [mem_segment]
      rw [mul_div_cancel₀ _ hd'.ne']
      exact ⟨h', le_rfl⟩
    · rw [dot_one]; push_cast; ring
  · rintro _ ⟨x, hx, rfl⟩
    rw [mem_segment] at hx
    rw [dot_one]
    push_cast
    rw [le_div_iff₀ hd']
    nlinarith [hx.2]

theorem least_segment (lo hi d c : ℤ) (hd : 0 < d) (hc : 0 ≤ c) (h : lo ≤ hi) :
    IsLeast (dot ![c] '' Feasible [] (segment lo hi d)) ((c * lo / d : ℚ) : ℝ) := by
  have hd' : (0 : ℝ) < d := by exact_mod_cast hd
  have hc' : (0 : ℝ) ≤ c := by exact_mod_cast hc
  have h' : (lo : ℝ) ≤ hi := by exact_mod_cast h
  constructor
  · refine ⟨fun _ => (lo : ℝ) / d, ?_, ?_⟩
    · rw [mem_segment]
      rw [mul_div_cancel₀ _ hd'.ne']
      exact ⟨le_rfl, h'⟩
    · rw [dot_one]; push_cast; ring
  · rintro _ ⟨x, hx, rfl⟩
    rw [mem_segment] at hx
    rw [dot_one]
    push_cast
    rw [div_le_iff₀ hd']
    nlinarith [hx.1]

/-- A setting for a segment with `d` one or two and small numbers: the solutions of the LP relaxation are its ends. -/
theorem setting_segment (lo hi d c : ℤ) (hd : 0 < d) (hc : c ≠ 0) (h : lo ≤ hi)
    (h1 : Dyadic ![c] ![(if 0 < c then hi else lo, d)] 1) (h2 : Dyadic ![c] ![(if 0 < c then lo else hi, d)] 1) :
    ∃ T : Tools 1, Setting T [] (segment lo hi d) ![c] := by
  have hd' : (0 : ℝ) < d := by exact_mod_cast hd
  have h' : (lo : ℝ) ≤ hi := by exact_mod_cast h
  have hlo : pointR (n := 1) ![(lo, d)] ∈ Feasible [] (segment lo hi d) := by
    rw [mem_segment, pointR_one, mul_div_cancel₀ _ hd'.ne']; exact ⟨le_rfl, h'⟩
  have hhi : pointR (n := 1) ![(hi, d)] ∈ Feasible [] (segment lo hi d) := by
    rw [mem_segment, pointR_one, mul_div_cancel₀ _ hd'.ne']; exact ⟨h', le_rfl⟩
  have hle : ∀ x ∈ Feasible [] (segment lo hi d), (lo : ℝ) / d ≤ x 0 ∧ x 0 ≤ (hi : ℝ) / d := by
    intro x hx
    rw [mem_segment] at hx
    rw [div_le_iff₀ hd', le_div_iff₀ hd']
    exact ⟨by linarith [hx.1], by linarith [hx.2]⟩
  have hc0 : (![c] : Vec 1) ≠ 0 := fun h => hc (by simpa using congrFun h 0)
  have hds : ∀ a : ℤ, ∀ i, ((![(a, d)] : Fin 1 → ℤ × ℤ) i).2 ≠ 0 := by
    intro a i
    fin_cases i
    exact hd.ne'
  by_cases hp : 0 < c
  · have hp' : (0 : ℝ) < c := by exact_mod_cast hp
    rw [if_pos hp] at h1 h2
    obtain ⟨T, a1, a2, a3, a4⟩ := tools_exist [] (segment lo hi d) ![c] hc0 ![(hi, d)] ![(lo, d)] (hds _) (hds _) hhi hlo
      (by intro z hz; rw [dot_one, dot_one, pointR_one]; have := (hle z hz).2; gcongr)
      (by intro z hz; rw [dot_one, dot_one, pointR_one]; have := (hle z hz).1; gcongr)
    exact ⟨T, a1, a2, ⟨_, hlo⟩, bounded_segment lo hi d hd, roundingOk_of_dyadic T _ _ _ 1 1 (by rw [a3]; exact h1) (by rw [a4]; exact h2)⟩
  · have hp' : (c : ℝ) ≤ 0 := by push Not at hp; exact_mod_cast hp
    rw [if_neg hp] at h1 h2
    obtain ⟨T, a1, a2, a3, a4⟩ := tools_exist [] (segment lo hi d) ![c] hc0 ![(lo, d)] ![(hi, d)] (hds _) (hds _) hlo hhi
      (by intro z hz; rw [dot_one, dot_one, pointR_one]; have := (hle z hz).1; nlinarith)
      (by intro z hz; rw [dot_one, dot_one, pointR_one]; have := (hle z hz).2; nlinarith)
    exact ⟨T, a1, a2, ⟨_, hlo⟩, bounded_segment lo hi d hd, roundingOk_of_dyadic T _ _ _ 1 1 (by rw [a3]; exact h1) (by rw [a4]; exact h2)⟩

theorem dyadic_small (c a d : ℤ) (hd : d = 1 ∨ d = 2) (hc : |c| ≤ 10) (ha : |a| ≤ 10) : Dyadic (n := 1) ![c] ![(a, d)] 1 := by
  refine ⟨?_, ?_, ?_, ?_, by norm_num⟩
  · intro i
    fin_cases i
    rcases hd with rfl | rfl
    · exact ⟨0, by norm_num, rfl⟩
    · exact ⟨1, le_rfl, rfl⟩
  · intro i
    fin_cases i
    exact ha.trans (by norm_num)
  · intro i
    fin_cases i
    exact hc.trans (by norm_num)
  · rw [Fin.sum_univ_one]
    show |c| * |a| * 2 ^ 1 ≤ 2 ^ 150
    have h1 := abs_nonneg c
    have h2 := abs_nonneg a
    nlinarith

theorem lattice_segment (lo hi d : ℤ) (z : Vec 1) : z ∈ Lattice (Feasible [] (segment lo hi d)) ↔ lo ≤ d * z 0 ∧ d * z 0 ≤ hi := by
  show (fun i => (z i : ℝ)) ∈ Feasible [] (segment lo hi d) ↔ _
  rw [mem_segment]
  norm_cast

/-- A case for `c77_maximize_partial` where the first check fails: maximize `2 x` for `0 ≤ x ≤ 1/2`. -/
example : ∃ T, Setting T [] (segment 0 1 2) ![2] ∧ IsGreatest (dot ![2] '' Feasible [] (segment 0 1 2)) ((1 : ℤ) : ℝ) ∧
    IsLeast (dot ![2] '' Feasible [] (segment 0 1 2)) 0 ∧ (Lattice (Feasible [] (segment 0 1 2))).Nonempty ∧
    ∀ z ∈ Lattice (Feasible [] (segment 0 1 2)), ∑ i, (![2] : Vec 1) i * z i ≠ 1 := by
  obtain ⟨T, hT⟩ := setting_segment 0 1 2 2 (by norm_num) (by norm_num) (by norm_num) (dyadic_small _ _ _ (.inr rfl) (by norm_num) (by norm_num))
    (dyadic_small _ _ _ (.inr rfl) (by norm_num) (by norm_num))
  refine ⟨T, hT, ?_, ?_, ⟨0, ?_⟩, ?_⟩
  · have := greatest_segment 0 1 2 2 (by norm_num) (by norm_num) (by norm_num)
    norm_num at this ⊢
    exact this
  · have := least_segment 0 1 2 2 (by norm_num) (by norm_num) (by norm_num)
    norm_num at this ⊢
    exact this
  · rw [lattice_segment]
    simp
  · intro z _
    rw [Fin.sum_univ_one]
    show 2 * z 0 ≠ 1
    omega

/-- A case for `c77_fractional`: maximize `x` for `0 ≤ x ≤ 1/2`. -/
theorem c77_fractional_example : ∃ T, Setting T [] (segment 0 1 2) ![1] ∧ IsMaximum [] (segment 0 1 2) ![1] 0 1 ∧
    ∀ fuel, latteMaximize T fuel [] (segment 0 1 2) ![1] = .error .exit1 := by
  obtain ⟨T, hT⟩ := setting_segment 0 1 2 1 (by norm_num) (by norm_num) (by norm_num) (dyadic_small _ _ _ (.inr rfl) (by norm_num) (by norm_num))
    (dyadic_small _ _ _ (.inr rfl) (by norm_num) (by norm_num))
  refine ⟨T, hT, ⟨⟨⟨0, by rw [lattice_segment]; simp, by simp⟩, ?_⟩, ?_⟩, ?_⟩
  · rintro _ ⟨z, hz, rfl⟩
    rw [lattice_segment] at hz
    beta_reduce
    rw [Fin.sum_univ_one]
    show 1 * z 0 ≤ 0
    omega
  · have : {z ∈ Lattice (Feasible [] (segment 0 1 2)) | ∑ i, (![1] : Vec 1) i * z i = 0} = {0} := by
      ext z
      rw [Set.mem_singleton_iff]
      show (z ∈ Lattice _ ∧ _) ↔ _
      rw [lattice_segment, Fin.sum_univ_one]
      show (_ ∧ 1 * z 0 = 0) ↔ _
      constructor
      · rintro ⟨-, h⟩
        funext i
        fin_cases i
        show z 0 = 0
        omega
      · rintro rfl
        simp
    rw [this, Set.ncard_singleton]
    rfl
  · refine c77_fractional T _ _ _ hT ?_
    rintro ⟨M, hM⟩
    have h1 := greatest_segment 0 1 2 1 (by norm_num) (by norm_num) (by norm_num)
    have h2 := hM.unique h1
    push_cast at h2
    have h3 : (2 * M : ℝ) = 1 := by rw [h2]; norm_num
    have h4 : 2 * M = 1 := by exact_mod_cast h3
    omega

/-- A case for `c77_minimize_sign`: minimize `x` for `1 ≤ x ≤ 2`; the answer is `-1`. -/
theorem c77_minimize_sign_example : ∃ T, Setting T [] (segment 1 2 1) (-![1]) ∧ (∃ k, IsMinimum [] (segment 1 2 1) ![1] 1 k) ∧
    ∀ fuel, ∃ k, latteMinimize T fuel [] (segment 1 2 1) ![1] = .ok ⟨-1, k, 0⟩ := by
  have e : (-![1] : Vec 1) = ![-1] := by ext i; fin_cases i; rfl
  obtain ⟨T, hT⟩ := setting_segment 1 2 1 (-1) (by norm_num) (by norm_num) (by norm_num)
    (dyadic_small _ _ _ (.inl rfl) (by norm_num) (by norm_num)) (dyadic_small _ _ _ (.inl rfl) (by norm_num) (by norm_num))
  rw [← e] at hT
  have hm := least_segment 1 2 1 1 (by norm_num) (by norm_num) (by norm_num)
  have hm' : IsLeast (dot ![1] '' Feasible [] (segment 1 2 1)) ((1 : ℤ) : ℝ) := by norm_num at hm ⊢; exact hm
  have hz : (fun _ => 1 : Vec 1) ∈ Lattice (Feasible [] (segment 1 2 1)) := by rw [lattice_segment]; simp
  have key := fun fuel => c77_minimize_sign T [] (segment 1 2 1) ![1] hT 1 hm' (fun _ => 1) hz (by simp) fuel
  refine ⟨T, hT, ⟨_, (key 0).choose_spec.1⟩, fun fuel => ⟨_, (key fuel).choose_spec.2⟩⟩

/-- A case for `c77_minimize_partial` where the sign is right: minimize `-2 x` for `0 ≤ x ≤ 1/2`. -/
example : ∃ T, Setting T [] (segment 0 1 2) (-![-2]) ∧ IsLeast (dot ![-2] '' Feasible [] (segment 0 1 2)) ((-1 : ℤ) : ℝ) ∧
    IsGreatest (dot ![-2] '' Feasible [] (segment 0 1 2)) 0 ∧ (Lattice (Feasible [] (segment 0 1 2))).Nonempty := by
  have e : (-![-2] : Vec 1) = ![2] := by ext i; fin_cases i; rfl
  obtain ⟨T, hT⟩ := setting_segment 0 1 2 2 (by norm_num) (by norm_num) (by norm_num) (dyadic_small _ _ _ (.inr rfl) (by norm_num) (by norm_num))
    (dyadic_small _ _ _ (.inr rfl) (by norm_num) (by norm_num))
  refine ⟨T, by rw [e]; exact hT, ?_, ?_, ⟨0, by rw [lattice_segment]; simp⟩⟩
  · rw [← image_neg, e]
    have := greatest_segment 0 1 2 2 (by norm_num) (by norm_num) (by norm_num)
    norm_num at this ⊢
    exact this
  · rw [← image_neg', e]
    have := least_segment 0 1 2 2 (by norm_num) (by norm_num) (by norm_num)
    norm_num at this ⊢
    exact this

/-- A case for `c77_no_lattice_points`: maximize `2 x` for `x = 1/2`. -/
example : ∃ T, Setting T [] (segment 1 1 2) ![2] ∧ IsGreatest (dot ![2] '' Feasible [] (segment 1 1 2)) ((1 : ℤ) : ℝ) ∧
    IsLeast (dot ![2] '' Feasible [] (segment 1 1 2)) 1 ∧ Lattice (Feasible [] (segment 1 1 2)) = ∅ := by
  obtain ⟨T, hT⟩ := setting_segment 1 1 2 2 (by norm_num) (by norm_num) (by norm_num) (dyadic_small _ _ _ (.inr rfl) (by norm_num) (by norm_num))
    (dyadic_small _ _ _ (.inr rfl) (by norm_num) (by norm_num))
  refine ⟨T, hT, ?_, ?_, ?_⟩
  · have := greatest_segment 1 1 2 2 (by norm_num) (by norm_num) (by norm_num)
    norm_num at this ⊢
    exact this
  · have := least_segment 1 1 2 2 (by norm_num) (by norm_num) (by norm_num)
    norm_num at this ⊢
    exact this
  · ext z
    rw [lattice_segment]
    simp only [Set.mem_empty_iff_false, iff_false]
    omega

/-! ## Rounding -/

/-- The triangle with `x₁ = 5 x₀`, `0 ≤ x₂`, `x₂ ≤ 4 x₀`, `x₂ ≤ 4 - 12 x₀`: the vertices are `(0, 0, 0)`, `(1/3, 5/3, 0)`, `(1/4, 5/4, 1)`. -/
abbrev triEqs : List (Row 3) := [(0, ![5, -1, 0])]

@[inherit_doc triEqs]
abbrev triIneqs : List (Row 3) := [(0, ![0, 0, 1]), (0, ![4, 0, -1]), (4, ![-12, 0, -1])]

abbrev triCost : Vec 3 := ![5, -1, 1]

theorem mem_tri (x : Fin 3 → ℝ) : x ∈ Feasible triEqs triIneqs ↔ x 1 = 5 * x 0 ∧ 0 ≤ x 2 ∧ x 2 ≤ 4 * x 0 ∧ x 2 ≤ 4 - 12 * x 0 := by
  show ((∀ r ∈ triEqs, _) ∧ (∀ r ∈ triIneqs, _)) ↔ _
  simp only [triEqs, triIneqs, List.forall_mem_cons, dot, Fin.sum_univ_three, Matrix.cons_val_zero, Matrix.cons_val_one, Matrix.cons_val]
  push_cast
  constructor
  · rintro ⟨⟨h1, -⟩, h2, h3, h4, -⟩
    refine ⟨?_, ?_, ?_, ?_⟩ <;> linarith
  · rintro ⟨h1, h2, h3, h4⟩
    refine ⟨⟨?_, by simp⟩, ?_, ?_, ?_, by simp⟩ <;> linarith

theorem dot_tri (x : Fin 3 → ℝ) : dot triCost x = 5 * x 0 - x 1 + x 2 := by
  simp [dot, Fin.sum_univ_three]
  ring

/-- **C77, violation.** All conditions are met but the one on rounding: the greatest value on the lattice points is zero, but the answer is one, with no solutions.
The value of the cost function at the vertex `(1/3, 5/3, 0)` is computed as `2⁻¹⁴⁹` and rounded up. -/
theorem c77_rounding : ∃ T : Tools 3, LpOk T.lp ∧ CountOk T.count ∧ (Feasible triEqs triIneqs).Nonempty ∧
    Bornology.IsBounded (Feasible triEqs triIneqs) ∧ IsGreatest (dot triCost '' Feasible triEqs triIneqs) ((1 : ℤ) : ℝ) ∧
    IsMaximum triEqs triIneqs triCost 0 1 ∧ ∀ fuel, latteMaximize T (fuel + 1) triEqs triIneqs triCost = .ok ⟨1, 0, 0⟩ := by
  have hx : pointR ![(1, 4), (5, 4), (1, 1)] ∈ Feasible triEqs triIneqs := by
    rw [mem_tri]; simp [pointR, point]; norm_num
  have hy : pointR ![(1, 3), (5, 3), (0, 1)] ∈ Feasible triEqs triIneqs := by
    rw [mem_tri]; simp [pointR, point]; norm_num
  have dx : dot triCost (pointR ![(1, 4), (5, 4), (1, 1)]) = 1 := by
    rw [dot_tri]; simp [pointR, point]; norm_num
  have dy : dot triCost (pointR ![(1, 3), (5, 3), (0, 1)]) = 0 := by
    rw [dot_tri]; simp [pointR, point]; norm_num
  obtain ⟨T, a1, a2, a3, a4⟩ := tools_exist triEqs triIneqs triCost (fun h => by simpa using congrFun h 0) ![(1, 4), (5, 4), (1, 1)]
    ![(1, 3), (5, 3), (0, 1)] (by decide) (by decide) hx hy
    (by intro z hz; rw [dx, dot_tri]; rw [mem_tri] at hz; linarith [hz.1, hz.2.2.1, hz.2.2.2])
    (by intro z hz; rw [dy, dot_tri]; rw [mem_tri] at hz; linarith [hz.1, hz.2.1])
  have hb : Bornology.IsBounded (Feasible triEqs triIneqs) := by
    refine (Metric.isBounded_Icc (fun _ : Fin 3 => (0 : ℝ)) (fun _ => 5)).subset ?_
    intro x hx
    rw [mem_tri] at hx
    obtain ⟨h1, h2, h3, h4⟩ := hx
    constructor
    · intro i
      fin_cases i
      · show 0 ≤ x 0; linarith
      · show 0 ≤ x 1; linarith
      · exact h2
    · intro i
      fin_cases i
      · show x 0 ≤ 5; linarith
      · show x 1 ≤ 5; linarith
      · show x 2 ≤ 5; linarith
  have hlat : ∀ z, z ∈ Lattice (Feasible triEqs triIneqs) ↔ z = 0 := by
    intro z
    show (fun i => (z i : ℝ)) ∈ Feasible triEqs triIneqs ↔ _
    rw [mem_tri]
    constructor
    · rintro ⟨h1, h2, h3, h4⟩
      have g1 : z 1 = 5 * z 0 := by exact_mod_cast h1
      have g2 : 0 ≤ z 2 := by exact_mod_cast h2
      have g3 : z 2 ≤ 4 * z 0 := by exact_mod_cast h3
      have g4 : z 2 ≤ 4 - 12 * z 0 := by exact_mod_cast h4
      funext i
      fin_cases i
      · show z 0 = 0; omega
      · show z 1 = 0; omega
      · show z 2 = 0; omega
    · rintro rfl
      simp
  have hlat' : Lattice (Feasible triEqs triIneqs) = {0} := by ext z; rw [hlat]; rfl
  have hM : IsGreatest (dot triCost '' Feasible triEqs triIneqs) ((1 : ℤ) : ℝ) := by
    rw [Int.cast_one]
    refine ⟨⟨_, hx, dx⟩, ?_⟩
    rintro _ ⟨z, hz, rfl⟩
    rw [dot_tri]
    rw [mem_tri] at hz
    linarith [hz.1, hz.2.2.1, hz.2.2.2]
  have hsum : ∀ z : Vec 3, z = 0 → ∑ i, triCost i * z i = 0 := by rintro z rfl; simp
  refine ⟨T, a1, a2, ⟨_, hx⟩, hb, hM, ⟨⟨⟨0, by rw [hlat], by simp⟩, ?_⟩, ?_⟩, ?_⟩
  · rintro _ ⟨z, hz, rfl⟩
    exact (hsum z ((hlat z).mp hz)).le
  · have : {z ∈ Lattice (Feasible triEqs triIneqs) | ∑ i, triCost i * z i = 0} = {0} := by
      ext z
      constructor
      · rintro ⟨h, -⟩; exact (hlat z).mp h
      · rintro rfl; exact ⟨(hlat 0).mpr rfl, by simp⟩
    rw [this, Set.ncard_singleton]
    rfl
  · intro fuel
    have r1 : ⌈rrDot triCost ![(1, 4), (5, 4), (1, 1)]⌉ = 1 := by decide +kernel
    have r2 : ⌈rrDot triCost ![(1, 3), (5, 3), (0, 1)]⌉ = 1 := by decide +kernel
    have c1 : optimalCheckEqu T triEqs triIneqs 1 triCost = .ok 0 := by
      have h1 := (a2 (latteFileEqu triEqs triIneqs 1 triCost) (latteFileEqu_wellFormed _ _ _ _)
        (by rw [latteFileEqu_sol]; exact hb.subset fun x hx => hx.1)).2
        (by rw [latteFileEqu_sol]; exact ⟨_, hx, by rw [dx]; norm_num⟩)
      have h2 : Lattice (latteFileEqu triEqs triIneqs 1 triCost).Sol = ∅ := by
        rw [latteFileEqu_sol]
        ext z
        simp only [Set.mem_empty_iff_false, iff_false]
        rintro ⟨h3, h4⟩
        rw [dot_int, hsum z ((hlat z).mp h3)] at h4
        norm_num at h4
      rw [optimalCheckEqu, h1, h2]
      simp
    have c2 : optimalCheck T triEqs triIneqs 1 triCost = .ok 0 := by
      have h1 := (a2 (latteFile triEqs triIneqs 1 triCost) (latteFile_wellFormed _ _ _ _)
        (by rw [latteFile_sol]; exact hb.subset fun x hx => hx.1)).2
        (by rw [latteFile_sol]; exact ⟨_, hx, by rw [dx]; norm_num⟩)
      have h2 : Lattice (latteFile triEqs triIneqs 1 triCost).Sol = ∅ := by
        rw [latteFile_sol]
        ext z
        simp only [Set.mem_empty_iff_false, iff_false]
        rintro ⟨h3, h4⟩
        rw [dot_int, hsum z ((hlat z).mp h3)] at h4
        norm_num at h4
      rw [optimalCheck, h1, h2]
      simp
    unfold latteMaximize binarySearch
    rw [a3, a4]
    dsimp only
    rw [r1, r2, c1]
    dsimp only
    rw [if_neg (by norm_num), if_neg (by norm_num)]
    dsimp only
    rw [bisect, if_pos (by norm_num)]
    dsimp only
    rw [c2]
    simp

/-- **C77, violation.** Here the cost function vanishes on the polyhedron `x₁ = 5 x₀`, `0 ≤ x₀ ≤ 1/3`, so that the greatest value is the integer zero, but the program
stops: the computed value of the LP relaxation is `2⁻¹⁴⁹`, and `count` is run on the empty polyhedron of points with value one. -/
theorem c77_rounding_stops : ∃ T : Tools 2, LpOk T.lp ∧ CountOk T.count ∧
    IsMaximum [(0, ![5, -1])] [(0, ![1, 0]), (1, ![-3, 0])] ![5, -1] 0 1 ∧
    ∀ fuel, latteMaximize T fuel [(0, ![5, -1])] [(0, ![1, 0]), (1, ![-3, 0])] ![5, -1] = .error .exit1 := by
  have hmem : ∀ x : Fin 2 → ℝ, x ∈ Feasible [(0, ![5, -1])] [(0, ![1, 0]), (1, ![-3, 0])] ↔ x 1 = 5 * x 0 ∧ 0 ≤ x 0 ∧ 3 * x 0 ≤ 1 := by
    intro x
    show ((∀ r ∈ [((0 : ℤ), (![5, -1] : Vec 2))], _) ∧ (∀ r ∈ [((0 : ℤ), (![1, 0] : Vec 2)), (1, ![-3, 0])], _)) ↔ _
    simp only [List.forall_mem_cons, dot, Fin.sum_univ_two, Matrix.cons_val_zero, Matrix.cons_val_one]
    push_cast
    constructor
    · rintro ⟨⟨h1, -⟩, h2, h3, -⟩
      refine ⟨?_, ?_, ?_⟩ <;> linarith
    · rintro ⟨h1, h2, h3⟩
      refine ⟨⟨?_, by simp⟩, ?_, ?_, by simp⟩ <;> linarith
  have hdot : ∀ x : Fin 2 → ℝ, dot ![5, -1] x = 5 * x 0 - x 1 := by
    intro x
    simp [dot, Fin.sum_univ_two]
    ring
  have h0 : ∀ x ∈ Feasible [(0, ![5, -1])] [(0, ![1, 0]), (1, ![-3, 0])], dot (![5, -1] : Vec 2) x = 0 := by
    intro x hx
    rw [hmem] at hx
    rw [hdot]
    linarith [hx.1]
  have hx : pointR ![(1, 3), (5, 3)] ∈ Feasible [(0, ![5, -1])] [(0, ![1, 0]), (1, ![-3, 0])] := by
    rw [hmem]; simp [pointR, point]; norm_num
  obtain ⟨T, a1, a2, a3, a4⟩ := tools_exist [(0, ![5, -1])] [(0, ![1, 0]), (1, ![-3, 0])] ![5, -1] (fun h => by simpa using congrFun h 0)
    ![(1, 3), (5, 3)] ![(1, 3), (5, 3)] (by decide) (by decide) hx hx (by intro z hz; rw [h0 z hz, h0 _ hx]) (by intro z hz; rw [h0 z hz, h0 _ hx])
  have hb : Bornology.IsBounded (Feasible [(0, ![5, -1])] [(0, ![1, 0]), (1, (![-3, 0] : Vec 2))]) := by
    refine (Metric.isBounded_Icc (fun _ : Fin 2 => (0 : ℝ)) (fun _ => 5)).subset ?_
    intro x hx
    rw [hmem] at hx
    obtain ⟨h1, h2, h3⟩ := hx
    constructor
    · intro i
      fin_cases i
      · exact h2
      · show 0 ≤ x 1; linarith
    · intro i
      fin_cases i
      · show x 0 ≤ 5; linarith
      · show x 1 ≤ 5; linarith
  have hlat : ∀ z, z ∈ Lattice (Feasible [(0, ![5, -1])] [(0, ![1, 0]), (1, (![-3, 0] : Vec 2))]) ↔ z = 0 := by
    intro z
    show (fun i => (z i : ℝ)) ∈ Feasible [(0, ![5, -1])] [(0, ![1, 0]), (1, (![-3, 0] : Vec 2))] ↔ _
    rw [hmem]
    constructor
    · rintro ⟨h1, h2, h3⟩
      have g1 : z 1 = 5 * z 0 := by exact_mod_cast h1
      have g2 : 0 ≤ z 0 := by exact_mod_cast h2
      have g3 : 3 * z 0 ≤ 1 := by exact_mod_cast h3
      funext i
      fin_cases i
      · show z 0 = 0; omega
      · show z 1 = 0; omega
    · rintro rfl
      simp
  refine ⟨T, a1, a2, ⟨⟨⟨0, by rw [hlat], by simp⟩, ?_⟩, ?_⟩, ?_⟩
  · rintro _ ⟨z, hz, rfl⟩
    rw [(hlat z).mp hz]
    simp
  · have : {z ∈ Lattice (Feasible [(0, ![5, -1])] [(0, ![1, 0]), (1, (![-3, 0] : Vec 2))]) | ∑ i, (![5, -1] : Vec 2) i * z i = 0} = {0} := by
      ext z
      constructor
      · rintro ⟨h, -⟩; exact (hlat z).mp h
      · rintro rfl; exact ⟨(hlat 0).mpr rfl, by simp⟩
    rw [this, Set.ncard_singleton]
    rfl
  · intro fuel
    have r1 : ⌈rrDot ![5, -1] ![(1, 3), (5, 3)]⌉ = 1 := by decide +kernel
    have h1 := (a2 (latteFileEqu [(0, ![5, -1])] [(0, ![1, 0]), (1, ![-3, 0])] 1 ![5, -1]) (latteFileEqu_wellFormed _ _ _ _)
        (by rw [latteFileEqu_sol]; exact hb.subset fun x hx => hx.1)).1 (by
      rw [latteFileEqu_sol]
      ext x
      simp only [Set.mem_empty_iff_false, iff_false]
      rintro ⟨h2, h3⟩
      rw [h0 x h2] at h3
      norm_num at h3)
    unfold latteMaximize binarySearch
    rw [a3]
    dsimp only
    rw [r1, optimalCheckEqu, h1]

end Verif.Optimize
