import Verif.Whole.Ehrhart
import Verif.Whole.Example

/-!
# C92: an example
-/

namespace Verif.Whole

open Verif.Barvinok Verif.Barvinok.Spec Verif.Ti2 Verif.Brion Verif.ExpSubst Verif.Files Verif.Preprocess

theorem ex_solutions (x : Fin 3 → ℝ) : x ∈ exP.Solutions ↔ x 0 + x 1 + x 2 = 2 ∧ 0 ≤ x 0 ∧ 0 ≤ x 1 ∧ 0 ≤ x 2 := by
  constructor
  · rintro ⟨h1, h2, h3⟩
    have e := h2 1 (by simp [exP]) (2, ![-1, -1, -1]) rfl
    simp [Fin.sum_univ_three] at e
    exact ⟨by linarith, h3 0 (by simp [exP]), h3 1 (by simp [exP]), h3 2 (by simp [exP])⟩
  · rintro ⟨e, p0, p1, p2⟩
    refine ⟨fun r hr => ?_, fun i hi r hr => ?_, fun k _ => ?_⟩
    · simp only [exP, List.mem_cons, List.not_mem_nil, or_false] at hr
      rcases hr with rfl | rfl <;> simp [Fin.sum_univ_three] <;> linarith
    · simp only [exP, Option.getD_some, List.mem_singleton] at hi
      subst hi
      simp [exP] at hr
      subst hr
      simp [Fin.sum_univ_three]
      linarith
    · fin_cases k
      · exact p0
      · exact p1
      · exact p2

/-- Two coordinates of a vertex are not both positive. -/
theorem ex_vertex (x : Fin 3 → ℝ) (hx : x ∈ exP.Solutions.extremePoints ℝ) (i j : Fin 3) (hij : i ≠ j) : x i = 0 ∨ x j = 0 := by
  have hs := (ex_solutions x).1 hx.1
  have hnn : ∀ k, 0 ≤ x k := by
    intro k
    fin_cases k
    · exact hs.2.1
    · exact hs.2.2.1
    · exact hs.2.2.2
  by_contra hne
  push Not at hne
  have hi : 0 < x i := lt_of_le_of_ne (hnn i) hne.1.symm
  have hj : 0 < x j := lt_of_le_of_ne (hnn j) hne.2.symm
  obtain ⟨ε, hε, hεi, hεj⟩ : ∃ ε : ℝ, 0 < ε ∧ ε ≤ x i ∧ ε ≤ x j := ⟨min (x i) (x j), lt_min hi hj, min_le_left _ _, min_le_right _ _⟩
  have hmem : ∀ s : ℝ, -ε ≤ s → s ≤ ε → (fun k => x k + s * ((if k = i then 1 else 0) - if k = j then 1 else 0)) ∈ exP.Solutions := by
    intro s h1 h2
    rw [ex_solutions]
    have hcoord : ∀ k, 0 ≤ x k + s * ((if k = i then 1 else 0) - if k = j then 1 else 0) := by
      intro k
      by_cases hki : k = i
      · subst hki
        rw [if_pos rfl, if_neg hij]
        linarith
      · by_cases hkj : k = j
        · subst hkj
          rw [if_neg hki, if_pos rfl]
          linarith
        · rw [if_neg hki, if_neg hkj]
          linarith [hnn k]
    refine ⟨?_, hcoord 0, hcoord 1, hcoord 2⟩
    have e : ∑ k : Fin 3, (((if k = i then 1 else 0) : ℝ) - if k = j then 1 else 0) = 0 := by
      rw [Finset.sum_sub_distrib]
      simp
    rw [Fin.sum_univ_three] at e
    have := hs.1
    linear_combination this + s * e
  have := hx.2 (hmem (-ε) le_rfl (by linarith)) (hmem ε (by linarith) le_rfl) ⟨1 / 2, 1 / 2, by norm_num, by norm_num, by norm_num, by
    funext k
    simp only [Pi.add_apply, Pi.smul_apply, smul_eq_mul]
    ring⟩
  have h1 := congrFun this i
  simp [hij] at h1
  linarith

theorem ex_integral : IntegralPolytope exP.Solutions := by
  intro x hx
  have h01 := ex_vertex x hx 0 1 (by decide)
  have h02 := ex_vertex x hx 0 2 (by decide)
  have h12 := ex_vertex x hx 1 2 (by decide)
  obtain ⟨e, -⟩ := (ex_solutions x).1 hx.1
  have hz : ∀ k, x k = 0 ∨ x k = 2 := by
    have key : (x 0 = 0 ∨ x 0 = 2) ∧ (x 1 = 0 ∨ x 1 = 2) ∧ (x 2 = 0 ∨ x 2 = 2) := by
      rcases h01 with h | h <;> rcases h02 with h' | h' <;> rcases h12 with h'' | h'' <;>
        refine ⟨?_, ?_, ?_⟩ <;> first | (left; linarith) | (right; linarith)
    intro k
    fin_cases k
    · exact key.1
    · exact key.2.1
    · exact key.2.2
  choose z hz' using fun k => (show ∃ z : ℤ, x k = z from (hz k).elim (fun h => ⟨0, by rw [h]; simp⟩) fun h => ⟨2, by rw [h]; simp⟩)
  exact ⟨z, funext hz'⟩

theorem ex_nontrivial : exP.Solutions.Nontrivial := by
  refine ⟨![2, 0, 0], (ex_solutions _).2 (by simp), ![0, 2, 0], (ex_solutions _).2 (by simp), fun h => ?_⟩
  have := congrFun h 0
  simp at this

theorem dilated_one {n : ℕ} (P : Empty.Problem n) : dilatedPoints P 1 = integerPoints P := by
  ext z
  rw [integerPoints_iff]
  unfold dilatedPoints
  simp

/-- There are tools and random numbers for which a polynomial is printed for the file of C91, and its value for the triangle itself is 6. -/
example : ∃ (T : Tools) (L : Limits) (coeffs : List ℚ), T.Ok ∧
    ehrhartFile T L "2 4 \n2 -1 -1 -1 \n5 -1 0 0 \nlinearity 1 1 \nnonnegative 3 1 2 3 \n".toList = .polynomial coeffs ∧ polyValue coeffs 1 = 6 := by
  obtain ⟨T, hT, hsv, htri⟩ := tools_satisfiable
  obtain ⟨d, N, D, ⟨lam, hl⟩, h⟩ := c92_total hT hsv htri 1 2 le_rfl (by decide) (by decide) (by decide) exP ex_ok ex_small (by simp [exP]) rfl ex_directions
    ex_integral ex_nontrivial 0
  obtain ⟨coeffs, hc, hv⟩ := h (fun d' _ => if e : d' = d then e ▸ lam else 0) N 1 (by simpa using hl) zero_lt_one le_rfl
  refine ⟨_, _, coeffs, ?_, by rw [← ex_text]; exact hc, ?_⟩
  · exact ⟨hT.lp, hT.canonicalize, hT.vertices, hT.ntl, hT.triangulate⟩
  · have := hv 1 le_rfl
    rw [dilated_one, ex_points, Set.ncard_coe_finset, Nat.cast_one] at this
    rw [this]
    have : ((Fintype.piFinset fun _ : Fin 3 => Finset.Icc (0 : ℤ) 2).filter fun z => z 0 + z 1 + z 2 = 2).card = 6 := by decide +kernel
    rw [this]
    norm_num

/-- The segment `0 ≤ x ≤ 1/2`. -/
def exHalf : Empty.Problem 1 where
  rows := [(1, ![-2]), (0, ![1])]
  linearity := none
  nonnegative := none
  nonnegFirst := false

theorem half_solutions (x : Fin 1 → ℝ) : x ∈ exHalf.Solutions ↔ 0 ≤ x 0 ∧ x 0 ≤ 1 / 2 := by
  constructor
  · rintro ⟨h1, -, -⟩
    have e1 := h1 (1, ![-2]) (by simp [exHalf])
    have e2 := h1 (0, ![1]) (by simp [exHalf])
    simp at e1 e2
    exact ⟨by linarith, by linarith⟩
  · rintro ⟨h1, h2⟩
    refine ⟨fun r hr => ?_, fun e he => by simp [exHalf] at he, fun k hk => by simp [exHalf] at hk⟩
    simp only [exHalf, List.mem_cons, List.not_mem_nil, or_false] at hr
    rcases hr with rfl | rfl <;> simp <;> linarith

theorem half_not_integral : ¬ IntegralPolytope exHalf.Solutions := by
  intro h
  have hx : (fun _ => 1 / 2 : Fin 1 → ℝ) ∈ exHalf.Solutions.extremePoints ℝ := by
    refine ⟨(half_solutions _).2 (by norm_num), fun u hu v hv ⟨a, b, ha, hb, hab, he⟩ => ?_⟩
    rw [half_solutions] at hu hv
    have he0 : a * u 0 + b * v 0 = 1 / 2 := congrFun he 0
    have hu0 : u 0 = 1 / 2 := by
      by_contra hne
      have h1 : u 0 < 1 / 2 := lt_of_le_of_ne hu.2 hne
      nlinarith [mul_lt_mul_of_pos_left h1 ha, mul_le_mul_of_nonneg_left hv.2 hb.le]
    funext k
    fin_cases k
    exact hu0
  obtain ⟨z, hz⟩ := h _ hx
  have h0 : (1 / 2 : ℝ) = (z 0 : ℝ) := congrFun hz 0
  have h1 : ((2 * z 0 : ℤ) : ℝ) = ((1 : ℤ) : ℝ) := by push_cast; linarith
  have h2 : 2 * z 0 = 1 := by exact_mod_cast h1
  omega

theorem half_directions : exHalf.Directions = {0} := by
  ext x
  constructor
  · rintro ⟨h1, -, -⟩
    have e1 := h1 (1, ![-2]) (by simp [exHalf])
    have e2 := h1 (0, ![1]) (by simp [exHalf])
    simp at e1 e2
    show x = 0
    funext k
    fin_cases k
    show x 0 = 0
    linarith
  · intro hx
    have : x = 0 := hx
    subst this
    exact ⟨by simp, by simp [exHalf], by simp⟩

/-- No polynomial is printed for the segment. -/
example {T : Tools} (hT : T.Ok) (L : Limits) (coeffs : List ℚ) : ehrhartFile T L "2 2 \n1 -2 \n0 1 \n".toList ≠ .polynomial coeffs := by
  have : text exHalf = "2 2 \n1 -2 \n0 1 \n".toList := by decide +kernel
  rw [← this]
  exact c92_rejects hT L zero_lt_one exHalf ⟨by decide, by decide, by decide⟩ ⟨by decide, by decide, by decide⟩ (by simp [exHalf]) rfl half_directions
    half_not_integral coeffs

/-- The point `x = 3`. -/
def exPoint : Empty.Problem 1 where
  rows := [(3, ![-1]), (-3, ![1])]
  linearity := none
  nonnegative := none
  nonnegFirst := false

/-- No polynomial is printed for an integer point. -/
example {T : Tools} (hT : T.Ok) (L : Limits) (coeffs : List ℚ) : ehrhartFile T L "2 2 \n3 -1 \n-3 1 \n".toList ≠ .polynomial coeffs := by
  have : text exPoint = "2 2 \n3 -1 \n-3 1 \n".toList := by decide +kernel
  rw [← this]
  refine c92_point_violation hT L zero_lt_one exPoint ⟨by decide, by decide, by decide⟩ ⟨by decide, by decide, by decide⟩ (by simp [exPoint]) rfl ?_ ?_ coeffs
  · ext x
    constructor
    · rintro ⟨h1, -, -⟩
      have e1 := h1 (3, ![-1]) (by simp [exPoint])
      have e2 := h1 (-3, ![1]) (by simp [exPoint])
      simp at e1 e2
      show x = 0
      funext k
      fin_cases k
      show x 0 = 0
      linarith
    · intro hx
      have : x = 0 := hx
      subst this
      exact ⟨by simp, by simp [exPoint], by simp⟩
  · rintro x ⟨hx, -, -⟩ y ⟨hy, -, -⟩
    have e1 := hx (3, ![-1]) (by simp [exPoint])
    have e2 := hx (-3, ![1]) (by simp [exPoint])
    have e3 := hy (3, ![-1]) (by simp [exPoint])
    have e4 := hy (-3, ![1]) (by simp [exPoint])
    simp at e1 e2 e3 e4
    funext k
    fin_cases k
    show x 0 = y 0
    linarith

end Verif.Whole
