import Verif.Whole.VolumeLattice
import Mathlib.Tactic.FinCases

/-!
# C93: examples
-/

namespace Verif.Whole

open MeasureTheory Verif.Barvinok Verif.Barvinok.Spec Verif.Files Verif.Preprocess

/-- The rectangle `0 ≤ x ≤ 3/2`, `0 ≤ y ≤ 1`. -/
def boxP : Empty.Problem 2 where
  rows := [(3, ![-2, 0]), (1, ![0, -1])]
  linearity := none
  nonnegative := some [1, 2]
  nonnegFirst := false

theorem box_text : text boxP = "2 3 \n3 -2 0 \n1 0 -1 \nnonnegative 2 1 2 \n".toList := by decide +kernel
theorem box_ok : boxP.Ok := ⟨by decide, by decide, by decide⟩
theorem box_small : Small boxP := ⟨by decide, by decide, by decide⟩

theorem box_solutions : boxP.Solutions = Set.pi Set.univ fun k => Set.Icc ((![0, 0] : Fin 2 → ℝ) k) ((![3 / 2, 1] : Fin 2 → ℝ) k) := by
  ext x
  rw [Set.mem_univ_pi]
  constructor
  · rintro ⟨h1, h2, h3⟩
    have a0 := h1 (3, ![-2, 0]) (by simp [boxP])
    have a1 := h1 (1, ![0, -1]) (by simp [boxP])
    have p0 := h3 0 (by simp [boxP])
    have p1 := h3 1 (by simp [boxP])
    simp [Fin.sum_univ_two] at a0 a1
    intro k
    fin_cases k
    · exact ⟨p0, by show x 0 ≤ 3 / 2; linarith⟩
    · exact ⟨p1, by show x 1 ≤ 1; linarith⟩
  · intro h
    obtain ⟨p0, a0⟩ := h 0
    obtain ⟨p1, a1⟩ := h 1
    simp only [Matrix.cons_val_zero, Matrix.cons_val_one] at p0 p1 a0 a1
    refine ⟨fun r hr => ?_, fun i hi r hr => ?_, fun k _ => ?_⟩
    · simp only [boxP, List.mem_cons, List.not_mem_nil, or_false] at hr
      rcases hr with rfl | rfl <;> simp [Fin.sum_univ_two] <;> linarith
    · simp [boxP] at hi
    · fin_cases k
      · exact p0
      · exact p1

theorem box_bounded : Bornology.IsBounded boxP.Solutions := by
  rw [box_solutions, Set.pi_univ_Icc]
  exact Metric.isBounded_Icc _ _

theorem box_interior : (interior boxP.Solutions).Nonempty := by
  rw [box_solutions, interior_pi_set Set.finite_univ]
  refine ⟨![1 / 2, 1 / 2], fun k _ => ?_⟩
  simp only [interior_Icc]
  fin_cases k <;> norm_num

theorem box_volume : (volume boxP.Solutions).toReal = 3 / 2 := by
  rw [box_solutions, Set.pi_univ_Icc, Real.volume_Icc_pi_toReal]
  · simp [Fin.prod_univ_two]
  · intro k
    fin_cases k <;> norm_num

/-- Whatever tools are used and whatever the random numbers are: answers printed for the file are `3/2`, `3/2`. -/
example {T : Tools} (hT : T.Ok) (draws : List ℕ) (hermite : ℕ) {l : List ℚ}
    (hl : volumeFile T .both draws hermite "2 3 \n3 -2 0 \n1 0 -1 \nnonnegative 2 1 2 \n".toList = .answers l) : l = [3 / 2, 3 / 2] := by
  rw [← box_text] at hl
  obtain ⟨h1, h2⟩ := (c93_volume hT .both draws hermite (by decide) boxP box_ok box_small (by simp [boxP]) rfl box_bounded box_interior).2 l hl
  rw [box_volume] at h2
  have h3 : ∀ v ∈ l, v = 3 / 2 := fun v hv => by
    have := h2 v hv
    have e : (v : ℝ) = ((3 / 2 : ℚ) : ℝ) := by rw [this]; norm_num
    exact_mod_cast e
  match l, h1 with
  | [a, b], _ => rw [h3 a (by simp), h3 b (by simp)]

/-- The segment `0 ≤ x ≤ 3/2`. -/
def segP : Empty.Problem 1 where
  rows := [(3, ![-2])]
  linearity := none
  nonnegative := some [1]
  nonnegFirst := false

theorem seg_ok : segP.Ok := ⟨by decide, by decide, by decide⟩
theorem seg_small : Small segP := ⟨by decide, by decide, by decide⟩

theorem seg_solutions : segP.Solutions = Set.pi Set.univ fun k => Set.Icc ((![0] : Fin 1 → ℝ) k) ((![3 / 2] : Fin 1 → ℝ) k) := by
  ext x
  rw [Set.mem_univ_pi]
  constructor
  · rintro ⟨h1, h2, h3⟩
    have a0 := h1 (3, ![-2]) (by simp [segP])
    have p0 := h3 0 (by simp [segP])
    simp at a0
    intro k
    fin_cases k
    exact ⟨p0, by show x 0 ≤ 3 / 2; linarith⟩
  · intro h
    obtain ⟨p0, a0⟩ := h 0
    simp only [Matrix.cons_val_zero] at p0 a0
    refine ⟨fun r hr => ?_, fun i hi r hr => ?_, fun k _ => ?_⟩
    · simp only [segP, List.mem_cons, List.not_mem_nil, or_false] at hr
      subst hr
      simp
      linarith
    · simp [segP] at hi
    · fin_cases k
      exact p0

theorem seg_bounded : Bornology.IsBounded segP.Solutions := by
  rw [seg_solutions, Set.pi_univ_Icc]
  exact Metric.isBounded_Icc _ _

theorem seg_interior : (interior segP.Solutions).Nonempty := by
  rw [seg_solutions, interior_pi_set Set.finite_univ]
  refine ⟨![1 / 2], fun k _ => ?_⟩
  simp only [interior_Icc]
  fin_cases k
  norm_num

/-- There are tools with which answers are printed when `rand` draws 1. -/
example : ∃ T : Tools, T.Ok ∧ ∀ o, ∃ l, volumeFile T o [1] 0 (text segP) = .answers l ∧ RightAnswers o segP.Solutions l := by
  obtain ⟨T, hT, hsv, htri⟩ := tools_satisfiable
  obtain ⟨R, hR, h⟩ := c93_total hT htri (by decide) segP seg_ok seg_small (by simp [segP]) rfl seg_bounded seg_interior
  refine ⟨T, hT, fun o => h o [1] 0 0 ⟨by simp, fun r hr h0 => hR r hr ?_⟩⟩
  simp at h0
  funext k
  fin_cases k
  exact h0

/-- The segment `x = 2 y`, `0 ≤ y ≤ 3` in the plane; its length is `3 √5`, but it has only four integer points. -/
def slantP : Empty.Problem 2 where
  rows := [(0, ![1, -2]), (3, ![0, -1]), (0, ![0, 1])]
  linearity := some [1]
  nonnegative := none
  nonnegFirst := false

theorem slant_text : text slantP = "3 3 \n0 1 -2 \n3 0 -1 \n0 0 1 \nlinearity 1 1 \n".toList := by decide +kernel
theorem slant_ok : slantP.Ok := ⟨by decide, by decide, by decide⟩
theorem slant_small : Small slantP := ⟨by decide, by decide, by decide⟩

theorem slant_solutions (x : Fin 2 → ℝ) : x ∈ slantP.Solutions ↔ x 0 = 2 * x 1 ∧ 0 ≤ x 1 ∧ x 1 ≤ 3 := by
  constructor
  · rintro ⟨h1, h2, -⟩
    have e := h2 1 (by simp [slantP]) (0, ![1, -2]) rfl
    have a := h1 (3, ![0, -1]) (by simp [slantP])
    have b := h1 (0, ![0, 1]) (by simp [slantP])
    simp [Fin.sum_univ_two] at e a b
    exact ⟨by linarith, by linarith, by linarith⟩
  · rintro ⟨e, a, b⟩
    refine ⟨fun r hr => ?_, fun i hi r hr => ?_, fun k hk => ?_⟩
    · simp only [slantP, List.mem_cons, List.not_mem_nil, or_false] at hr
      rcases hr with rfl | rfl | rfl <;> simp [Fin.sum_univ_two] <;> linarith
    · simp only [slantP, Option.getD_some, List.mem_singleton] at hi
      subst hi
      simp [slantP] at hr
      subst hr
      simp [Fin.sum_univ_two]
      linarith
    · simp [slantP] at hk

theorem slant_directions : slantP.Directions = {0} := by
  ext x
  constructor
  · rintro ⟨h1, h2, -⟩
    have e := h2 1 (by simp [slantP]) (0, ![1, -2]) rfl
    have a := h1 (3, ![0, -1]) (by simp [slantP])
    have b := h1 (0, ![0, 1]) (by simp [slantP])
    simp [Fin.sum_univ_two] at e a b
    show x = 0
    funext k
    fin_cases k
    · show x 0 = 0; linarith
    · show x 1 = 0; linarith
  · intro hx
    have : x = 0 := hx
    subst this
    exact ⟨by simp, by simp, by simp⟩

theorem slant_coordinates : LatticeCoordinates slantP.Solutions (Set.pi Set.univ fun _ : Fin 1 => Set.Icc (0 : ℝ) 3) 0 ![![2, 1]] := by
  refine ⟨?_, ?_, ?_⟩
  · intro x y h
    have := congrFun h 1
    simp at this
    funext k
    fin_cases k
    exact this
  · ext x
    rw [slant_solutions]
    constructor
    · rintro ⟨y, hy, rfl⟩
      obtain ⟨h1, h2⟩ := hy 0 trivial
      simp
      exact ⟨by ring, h1, h2⟩
    · rintro ⟨e, a, b⟩
      refine ⟨fun _ => x 1, fun _ _ => ⟨a, b⟩, ?_⟩
      funext k
      fin_cases k
      · simp; linarith
      · simp
  · intro y
    constructor
    · intro h k
      obtain ⟨z, hz⟩ := h 0
      fin_cases k
      · exact ⟨z * 2, by simp [hz]⟩
      · exact ⟨z, by simp [hz]⟩
    · intro h j
      obtain ⟨w, hw⟩ := h 1
      fin_cases j
      exact ⟨w, by simpa using hw⟩

theorem slant_interior : (interior (Set.pi Set.univ fun _ : Fin 1 => Set.Icc (0 : ℝ) 3)).Nonempty := by
  rw [interior_pi_set Set.finite_univ]
  refine ⟨![1], fun k _ => ?_⟩
  simp only [interior_Icc]
  fin_cases k
  norm_num

theorem slant_volume : IsLatticeVolume slantP.Solutions 3 := by
  refine ⟨1, _, 0, _, slant_coordinates, slant_interior, ?_⟩
  rw [volume_pi_pi]
  simp

/-- Whatever tools are used and whatever the random numbers are: an answer printed for the file is 3. -/
example {T : Tools} (hT : T.Ok) (hst : CanonicalizeStrict T.canonicalize) (draws : List ℕ) (hermite : ℕ) {l : List ℚ}
    (hl : volumeFile T .coneDecompose draws hermite "3 3 \n0 1 -2 \n3 0 -1 \n0 0 1 \nlinearity 1 1 \n".toList = .answers l) : l = [3] := by
  rw [← slant_text] at hl
  obtain ⟨h1, h2⟩ := (c93_lattice_volume hT hst .coneDecompose draws hermite (by decide) slantP slant_ok slant_small (by simp [slantP]) rfl slant_directions).2 l hl
  match l, h1 with
  | [a], _ =>
    have := latticeVolume_unique (h2 a (by simp)) slant_volume
    rw [show a = 3 by exact_mod_cast this]

/-- And there are tools with which it is printed. -/
example : ∃ (T : Tools) (hermite : ℕ), T.Ok ∧ CanonicalizeStrict T.canonicalize ∧ ∃ l, volumeFile T .both [1] hermite (text slantP) = .answers l := by
  obtain ⟨T, hT, hsv, htri, hst⟩ := tools_satisfiable_strict
  obtain ⟨N, d, Q, p, B, R, hco, hi, hR, h⟩ := c93_lattice_total hT hst htri (by decide) slantP slant_ok slant_small (by simp [slantP]) rfl slant_directions (by
      intro hsub
      have := congrFun (hsub ((slant_solutions ![0, 0]).2 (by simp)) ((slant_solutions ![2, 1]).2 (by norm_num))) 1
      simp at this) (by
      refine ⟨0, mem_affineSpan ℝ ?_⟩
      rw [slant_solutions]
      simp)
  obtain rfl := hco.dim_eq hi slant_coordinates slant_interior
  obtain ⟨as, has, -⟩ := h .both [1] N 0 le_rfl ⟨by simp, fun r hr h0 => hR r hr (by
    simp at h0
    funext k
    fin_cases k
    exact h0)⟩
  exact ⟨T, N, hT, hst, as, has⟩

end Verif.Whole
