import Verif.Valuation.Geometry

/-! C40: the determinant formula for volumes, and the sum over a triangulation. -/

namespace Verif.Valuation

open MeasureTheory Set Verif.Measure Verif.Trie
open scoped Pointwise

theorem factorialPV_eq (n : ℕ) : factorialPV n = (n.factorial : ℤ) := by
  have key : ∀ k, k ≤ n → (List.range k).foldl (fun (p : ℤ) (i : ℕ) => p * (((n - i : ℕ)) : ℤ)) 1 * ((n - k).factorial : ℤ) = (n.factorial : ℤ) := by
    intro k
    induction k with
    | zero => intro _; simp
    | succ k ih =>
      intro h
      rw [← ih (by omega), List.range_succ, List.foldl_append, List.foldl_cons, List.foldl_nil]
      obtain ⟨m, hm⟩ : ∃ m, n - k = m + 1 := ⟨n - k - 1, by omega⟩
      rw [hm, show n - (k + 1) = m by omega, Nat.factorial_succ]
      push_cast; ring
  unfold factorialPV
  have := key (n - 1) (by omega)
  have h1 : ((n - (n - 1)).factorial : ℤ) = 1 := by
    rcases Nat.eq_zero_or_pos n with h | h
    · subst h; rfl
    · rw [show n - (n - 1) = 1 by omega]; rfl
  rw [h1, mul_one] at this
  exact this

theorem foldl_mul_map {α : Type} (f : α → ℤ) (l : List α) : ∀ a : ℤ, l.foldl (fun d r => d * f r) a = a * (l.map f).prod := by
  induction l with
  | nil => intro a; simp
  | cons x l ih => intro a; rw [List.foldl_cons, ih, List.map_cons, List.prod_cons]; ring

theorem prod_getD {α : Type} (k : ℕ) (c : List (List α)) (hc : c.length = k) (f : List α → ℤ) :
    (c.map f).prod = ∏ j : Fin k, f (c.getD j []) := by
  subst hc
  rw [← List.prod_ofFn]
  congr 1
  apply List.ext_getElem
  · simp
  · intro i h1 h2
    simp at h1
    simp [List.getD_eq_getElem?_getD]

/-- homogeneous coordinates that denote a point -/
def GoodRays (n : ℕ) (c : List (List ℤ)) : Prop := ∀ r ∈ c, r.length = n + 1 ∧ 0 < r.getD n 0

theorem getD_mem {α : Type} (c : List (List α)) (i : ℕ) (h : i < c.length) : c.getD i [] ∈ c := by
  rw [List.getD_eq_getElem _ _ h]; exact List.getElem_mem _

theorem rays_det (n : ℕ) (c : List (List ℤ)) (hc : c.length = n + 1) (hp : ∀ r ∈ c, r.getD n 0 ≠ 0) :
    ((|Matrix.det (Matrix.of fun (i j : Fin (n + 1)) => (c.getD i []).getD j 0)| : ℤ) : ℝ) =
      |((∏ j : Fin (n + 1), (c.getD j []).getD n 0 : ℤ) : ℝ)| * |(edgeMat n fun j : Fin (n + 1) => chart n (c.getD j [])).det| := by
  rw [← abs_det_hom, ← abs_mul, Int.cast_abs]
  congr 1
  have h := Matrix.det_mul_column (fun i : Fin (n + 1) => (((c.getD i []).getD n 0 : ℤ) : ℝ))
    (Matrix.of fun (i j : Fin (n + 1)) => Fin.lastCases (motive := fun _ => ℝ) 1 (fun j' : Fin n => chart n (c.getD i []) j') j)
  push_cast
  rw [← h]
  congr 1
  ext i j
  have h0 : (((c.getD i []).getD n 0 : ℤ) : ℝ) ≠ 0 := by
    exact_mod_cast hp _ (getD_mem c i (by omega))
  simp only [Matrix.map_apply, Matrix.of_apply]
  refine Fin.lastCases ?_ (fun j' => ?_) j
  · simp
  · simp only [Fin.lastCases_castSucc, Fin.val_castSucc, chart]
    field_simp

/-- **C40.** For `n+1` points given by homogeneous integer coordinates with positive last entry, the returned value is the Lebesgue
volume of their convex hull. -/
theorem c40_simplex_volume (n : ℕ) (c : List (List ℤ)) (hc : c.length = n + 1) (hp : ∀ r ∈ c, 0 < r.getD n 0) :
    ∃ v : ℚ, volumeDet (n + 1) c = some v ∧ (v : ℝ) = (volume (hull n c)).toReal := by
  have hden : c.foldl (fun d r => d * r.getD (n + 1 - 1) 0) 1 * factorialPV (c.length - 1) =
      (∏ j : Fin (n + 1), (c.getD j []).getD n 0) * (n.factorial : ℤ) := by
    rw [foldl_mul_map, one_mul, prod_getD (n + 1) c hc, factorialPV_eq, hc]; simp
  have hprod : 0 < ∏ j : Fin (n + 1), (c.getD j []).getD n 0 :=
    Finset.prod_pos fun j _ => hp _ (getD_mem c j (by omega))
  have hf : (0 : ℤ) < n.factorial := by exact_mod_cast n.factorial_pos
  have hne : (∏ j : Fin (n + 1), (c.getD j []).getD n 0) * (n.factorial : ℤ) ≠ 0 := (mul_pos hprod hf).ne'
  unfold volumeDet
  rw [if_pos hc]
  simp only [hden]
  rw [if_neg hne]
  refine ⟨_, rfl, ?_⟩
  rw [hull_simplex n c hc, volume_simplex]
  have hd := rays_det n c hc (fun r hr => (hp r hr).ne')
  rw [Rat.cast_div, Rat.cast_intCast, Rat.cast_intCast, hd]
  clear hd
  have h1 : (0:ℝ) < ((∏ j : Fin (n + 1), (c.getD j []).getD n 0 : ℤ) : ℝ) := by exact_mod_cast hprod
  rw [abs_of_pos h1, Int.cast_mul, Int.cast_natCast]
  have h2 : (n.factorial : ℝ) ≠ 0 := by exact_mod_cast n.factorial_ne_zero
  field_simp

/-- non-vacuity: the triangle (0,0), (1/2,0), (0,1/3) given by (0,0,1), (1,0,2), (0,1,3) has area 1/12. -/
example : volumeDet 3 [[0, 0, 1], [1, 0, 2], [0, 1, 3]] = some (1 / 12) := by decide +kernel

/-- a negative last entry is outside the claim: the value comes out negative. -/
theorem c40_negative_height : volumeDet 3 [[0, 0, -1], [1, 0, 2], [0, 1, 3]] = some (-1 / 12) := by decide +kernel

theorem volumeLoop_spec (n : ℕ) (cs : List VCone) (h : ∀ c ∈ cs, c.rays.length = n + 1 ∧ ∀ r ∈ c.rays, 0 < r.getD n 0) :
    ∀ a : ℚ, ∃ v : ℚ, volumeLoop (n + 1) cs a = some v ∧
      (v : ℝ) = a + (cs.map fun c => (volume (hull n c.rays)).toReal).sum := by
  induction cs with
  | nil => intro a; exact ⟨a, rfl, by simp⟩
  | cons c cs ih =>
    intro a
    obtain ⟨v, e, hv⟩ := c40_simplex_volume n c.rays (h c (by simp)).1 (h c (by simp)).2
    obtain ⟨w, e', hw⟩ := ih (fun k hk => h k (by simp [hk])) (a + v)
    refine ⟨w, ?_, ?_⟩
    · rw [volumeLoop, e]; exact e'
    · rw [hw, List.map_cons, List.sum_cons, ← hv]; push_cast; ring

/-- volumes add up over a triangulation -/
theorem volume_triangulated (n : ℕ) (rs : List (List ℤ)) (cs : List (List (List ℤ))) (h : Triangulates n rs cs) :
    (volume (hull n rs)).toReal = (cs.map fun c => (volume (hull n c)).toReal).sum := by
  have := integral_triangulated n (fun _ => (1:ℝ)) continuous_const cs h.overlap
  rw [← h.cover] at this
  simpa [measureReal_restrict_apply_univ, Measure.real] using this

end Verif.Valuation
