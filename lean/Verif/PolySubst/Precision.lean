import Verif.PolySubst.Total

/-!
# The limit of the precision (C70)

`Ten_Power` is fixed; nothing in the program counts the terms.
-/

namespace Verif.PolySubst

open Verif.Barvinok (Cone Mat Vec rel)
open Verif.Barvinok.Spec
open Verif.ExpSubst

/-- The half line `{z ≥ 0}` with sign `c`. -/
def halfLine (c : ℤ) : Cone 1 where
  coefficient := c
  vertex := fun _ => 0
  rays := fun _ _ => 1
  determinant := 1
  facets := some fun _ _ => -1
  dualDeterminant := -1
  facetDivisors := fun _ => 1

theorem halfLine_rays (c : ℤ) : (halfLine c).rays = (1 : Mat 1) := by
  ext i j
  rw [Subsingleton.elim i j, Matrix.one_apply_eq]
  rfl

theorem halfLine_det (c : ℤ) : (halfLine c).rays.det = 1 := by rw [halfLine_rays, Matrix.det_one]

theorem halfLine_ready (c : ℤ) : Ready (m := 0) 2 (halfLine c) := by
  refine ⟨⟨_, rfl, (halfLine_det c).symm, ?_, ?_, ?_, ?_, vertexScale_ne _⟩, ?_, ?_⟩
  · show (halfLine c).rays.det ≠ 0
    rw [halfLine_det]; exact one_ne_zero
  · intro i j
    have : i = j := Fin.ext (by omega)
    rw [if_pos this]
    show (∑ k : Fin 1, (-1 : ℤ) * 1) = -(1 * 1)
    simp
  · intro j; exact one_pos
  · intro j; exact one_dvd _
  · show |(1 : ℤ)| ≤ Piped.intMax
    decide +kernel
  · rw [halfLine_det]; decide +kernel

theorem halfLine_points (X : Smith.Xgcd) (c : ℤ) :
    ∃ F, (halfLine c).facets = some F ∧ Piped.points X (pipedInput (m := 0) (halfLine c) F) 2 = .ok [fun _ => 0] := by
  obtain ⟨F, hF, hG⟩ := (halfLine_ready c).facets
  obtain ⟨pts, h1, h2, h3, h4⟩ := Piped.c13_points_exact X (pipedInput (m := 0) (halfLine c) F) hG (halfLine_ready c).small 2 (halfLine_ready c).fuel
  refine ⟨F, hF, ?_⟩
  rw [h1]
  have h5 : (pts.length : ℤ) = 1 := by
    rw [h3]
    show |(halfLine c).rays.det| = 1
    rw [halfLine_det]; rfl
  obtain ⟨p, rfl⟩ := List.length_eq_one_iff.1 (by exact_mod_cast h5)
  have h6 : (fun _ => 0 : Vec 1) ∈ [p] := by
    rw [h4, pipedInput_vertex]
    exact ⟨fun _ => 0, fun _ => ⟨le_refl _, one_pos⟩, fun k => by simp [halfLine]⟩
  rw [List.mem_singleton.1 h6]

theorem consumeCone_of_points {m : ℕ} (X : Smith.Xgcd) (T : ℤ) (lam : Vec (m + 1)) (fuel : ℕ) (C : Cone (m + 1)) (F : Mat (m + 1))
    (hF : C.facets = some F) (pts : List (Vec (m + 1))) (hp : Piped.points X (pipedInput C F) fuel = .ok pts) :
    consumeCone X T lam fuel C = residueSingleCone T lam C.coefficient (List.ofFn fun i => C.rays i) pts := by
  unfold consumeCone
  simp only [hF, hp]

/-- What the program adds for a half line and the generic vector `3`: the exact value `±10¹⁰/3` rounded down. -/
theorem halfLine_consume (X : Smith.Xgcd) :
    consumeCone (m := 0) X tenPowerConst (fun _ => 3) 2 (halfLine 1) = .ok (-3333333334 : ℤ) ∧
    consumeCone (m := 0) X tenPowerConst (fun _ => 3) 2 (halfLine (-1)) = .ok (3333333333 : ℤ) := by
  constructor <;>
  · obtain ⟨F, hF, hp⟩ := halfLine_points X _
    refine (consumeCone_of_points X _ _ 2 _ F hF _ hp).trans ?_
    have e : ∀ c, (List.ofFn fun i : Fin (0 + 1) => (halfLine c).rays i) = [fun _ => (1 : ℤ)] := fun c => rfl
    rw [e]
    unfold residueSingleCone
    rw [if_neg (by decide +kernel), if_neg (by decide +kernel)]
    rfl

/-- `k` times a half line and its negative. -/
def halfLines : ℕ → List (Cone 1)
  | 0 => []
  | k + 1 => halfLine 1 :: halfLine (-1) :: halfLines k

theorem halfLines_total (X : Smith.Xgcd) (k : ℕ) (acc : ℤ) :
    totalPoints (m := 0) X tenPowerConst (fun _ => 3) 2 (halfLines k) acc = .ok (acc - k) := by
  induction k generalizing acc with
  | zero => simp [halfLines, totalPoints]
  | succ k ih =>
    unfold halfLines totalPoints
    rw [(halfLine_consume X).1]
    show totalPoints (m := 0) X tenPowerConst (fun _ => 3) 2 (halfLine (-1) :: halfLines k) (acc + -3333333334) = _
    unfold totalPoints
    rw [(halfLine_consume X).2]
    show totalPoints (m := 0) X tenPowerConst (fun _ => 3) 2 (halfLines k) (acc + -3333333334 + 3333333333) = _
    rw [ih]
    push_cast
    congr 1
    ring

/-- **The precision is not enough in general.** The cones are a half line and its negative, `5·10⁹` times: their indicator functions sum to zero, all cones
satisfy what the decomposition guarantees, the vector `3` is generic for them, and the program reports `1` point instead of none. -/
theorem c70_precision_violated (X : Smith.Xgcd) : ∃ cones : List (Cone 1),
    (∀ C ∈ cones, Ready (m := 0) 2 C) ∧ (∀ C ∈ cones, ∀ i : Fin 1, ∑ k, (3 : ℤ) * C.rays i k ≠ 0) ∧
    (∀ z, (cones.map fun C => C.coefficient * ind (cone C.rays) (rel z C.vertex)).sum = 0) ∧
    ∃ t, totalPoints (m := 0) X tenPowerConst (fun _ => 3) 2 cones 0 = .ok t ∧ roundTotal tenPowerConst t = 1 := by
  have hmem : ∀ k, ∀ C ∈ halfLines k, ∃ c, C = halfLine c := by
    intro k
    induction k with
    | zero => intro C hC; cases hC
    | succ k ih =>
      intro C hC
      rcases List.mem_cons.1 hC with rfl | hC
      · exact ⟨_, rfl⟩
      rcases List.mem_cons.1 hC with rfl | hC
      · exact ⟨_, rfl⟩
      exact ih C hC
  refine ⟨halfLines (5 * 10 ^ 9), ?_, ?_, ?_, _, halfLines_total X _ 0, by decide +kernel⟩
  · intro C hC
    obtain ⟨c, rfl⟩ := hmem _ C hC
    exact halfLine_ready c
  · intro C hC i
    obtain ⟨c, rfl⟩ := hmem _ C hC
    show ∑ k : Fin 1, (3 : ℤ) * 1 ≠ 0
    simp
  · intro z
    generalize 5 * 10 ^ 9 = k
    induction k with
    | zero => rfl
    | succ k ih =>
      unfold halfLines
      rw [List.map_cons, List.map_cons, List.sum_cons, List.sum_cons, ih]
      show (1 : ℤ) * _ + (-1 * ind (cone (halfLine 1).rays) (rel z (halfLine 1).vertex) + 0) = 0
      ring

end Verif.PolySubst
