import Verif.Valuation.Model
import Verif.Measure.Simplex
import Verif.RatVec.Lemmas
import Verif.Trie.DecProps
import Mathlib.MeasureTheory.Group.Pointwise
import Mathlib.MeasureTheory.Measure.Haar.NormedSpace
import Mathlib.Algebra.MvPolynomial.CommRing

/-! Specification vocabulary for valuations and the geometry used in the proofs. -/

namespace Verif.Valuation

open MeasureTheory Set Verif.Measure Verif.Trie
open scoped Pointwise

/-- **Specification.** The point of `ℝ^n` whose homogeneous coordinates are `r`: the first `n` entries divided by the last. -/
noncomputable def chart (n : ℕ) (r : List ℤ) : Fin n → ℝ := fun i => (r.getD i 0 : ℝ) / (r.getD n 0 : ℝ)

/-- **Specification.** The polytope spanned by a list of homogeneous points. -/
noncomputable def hull (n : ℕ) (rs : List (List ℤ)) : Set (Fin n → ℝ) := convexHull ℝ {x | ∃ r ∈ rs, x = chart n r}

/-- **Specification.** `cs` is a triangulation of the polytope spanned by `rs`, up to sets of measure zero, using only points of `rs`. -/
structure Triangulates (n : ℕ) (rs : List (List ℤ)) (cs : List (List (List ℤ))) : Prop where
  size : ∀ c ∈ cs, c.length = n + 1
  sub : ∀ c ∈ cs, ∀ r ∈ c, r ∈ rs
  cover : hull n rs = ⋃ c ∈ cs, hull n c
  overlap : cs.Pairwise fun c c' => volume (hull n c ∩ hull n c') = 0

/-- **Specification.** Value of a rational polynomial at a real point. -/
noncomputable def polyAt {n : ℕ} (p : MvPolynomial (Fin n) ℚ) (x : Fin n → ℝ) : ℝ := MvPolynomial.aeval x p

theorem polyAt_continuous {n : ℕ} (p : MvPolynomial (Fin n) ℚ) : Continuous (polyAt p) := by
  unfold polyAt
  induction p using MvPolynomial.induction_on with
  | C a => simpa using continuous_const
  | add p q hp hq => simp only [map_add]; exact hp.add hq
  | mul_X p i hp => simp only [map_mul, MvPolynomial.aeval_X]; exact hp.mul (continuous_apply i)

theorem hull_isCompact (n : ℕ) (rs : List (List ℤ)) : IsCompact (hull n rs) := by
  have hfin : {x | ∃ r ∈ rs, x = chart n r}.Finite := by
    have : {x | ∃ r ∈ rs, x = chart n r} = chart n '' {r | r ∈ rs} := by
      ext x; simp only [mem_ofPred_eq, mem_image]; constructor
      · rintro ⟨r, hr, rfl⟩; exact ⟨r, hr, rfl⟩
      · rintro ⟨r, hr, rfl⟩; exact ⟨r, hr, rfl⟩
    rw [this]
    exact (List.finite_toSet rs).image _
  exact hfin.isCompact_convexHull (𝕜 := ℝ)

theorem hull_integrable (n : ℕ) (rs : List (List ℤ)) (f : (Fin n → ℝ) → ℝ) (hf : Continuous f) : IntegrableOn f (hull n rs) :=
  hf.continuousOn.integrableOn_compact (hull_isCompact n rs)

/-- integration over a triangulated polytope -/
theorem integral_triangulated (n : ℕ) (f : (Fin n → ℝ) → ℝ) (hf : Continuous f) (cs : List (List (List ℤ)))
    (h : cs.Pairwise fun c c' => volume (hull n c ∩ hull n c') = 0) :
    ∫ x in (⋃ c ∈ cs, hull n c), f x = (cs.map fun c => ∫ x in hull n c, f x).sum := by
  induction cs with
  | nil => simp
  | cons c cs ih =>
    obtain ⟨h1, h2⟩ := List.pairwise_cons.1 h
    have hU : (⋃ k ∈ c :: cs, hull n k) = hull n c ∪ ⋃ k ∈ cs, hull n k := by
      ext x; simp
    have hmeas : ∀ l : List (List (List ℤ)), MeasurableSet (⋃ k ∈ l, hull n k) ∧ IntegrableOn f (⋃ k ∈ l, hull n k) := by
      intro l
      induction l with
      | nil => simp
      | cons k l ih =>
        have : (⋃ j ∈ k :: l, hull n j) = hull n k ∪ ⋃ j ∈ l, hull n j := by ext x; simp
        rw [this]
        exact ⟨(hull_isCompact n k).measurableSet.union ih.1, (hull_integrable n k f hf).union ih.2⟩
    rw [hU, List.map_cons, List.sum_cons, ← ih h2]
    apply setIntegral_union₀
    · unfold AEDisjoint
      have : hull n c ∩ ⋃ k ∈ cs, hull n k = ⋃ k ∈ cs, hull n c ∩ hull n k := by
        ext x; simp
      rw [this]
      exact (measure_biUnion_null_iff (List.finite_toSet cs).countable).2 h1
    · exact (hmeas cs).1.nullMeasurableSet
    · exact hull_integrable n c f hf
    · exact (hmeas cs).2

/-- points of a cone with `n+1` rays, as a simplex -/
theorem hull_simplex (n : ℕ) (c : List (List ℤ)) (hc : c.length = n + 1) :
    hull n c = convexHull ℝ (range fun j : Fin (n + 1) => chart n (c.getD j [])) := by
  unfold hull
  congr 1
  ext x
  simp only [mem_ofPred_eq, mem_range]
  constructor
  · rintro ⟨r, hr, rfl⟩
    obtain ⟨i, hi, rfl⟩ := List.mem_iff_getElem.1 hr
    exact ⟨⟨i, by omega⟩, by simp only; rw [List.getD_eq_getElem _ _ hi]⟩
  · rintro ⟨j, rfl⟩
    exact ⟨c.getD j [], by rw [List.getD_eq_getElem _ _ (by omega)]; exact List.getElem_mem _, rfl⟩

/-- determinant of homogenised points (rows) against the edge matrix -/
theorem abs_det_hom (n : ℕ) (x : Fin (n + 1) → Fin n → ℝ) :
    |(Matrix.of fun (i j : Fin (n + 1)) => Fin.lastCases (motive := fun _ => ℝ) 1 (fun j' : Fin n => x i j') j).det| = |(edgeMat n x).det| := by
  let A : Matrix (Fin (n + 1)) (Fin (n + 1)) ℝ := Matrix.of fun (i j : Fin (n + 1)) => Fin.lastCases (motive := fun _ => ℝ) 1 (fun j' : Fin n => x i j') j
  let c : Fin (n + 1) → ℝ := fun b => if b = 0 then 0 else -1
  let A' : Matrix (Fin (n + 1)) (Fin (n + 1)) ℝ := Matrix.of fun a b => A a b + c a * A 0 b
  have hdet : A'.det = A.det :=
    Matrix.det_eq_of_forall_row_eq_smul_add_const c 0 (by simp [c]) (fun a b => by simp [A'])
  have hcol : ∀ a, A' a (Fin.last n) = if a = 0 then 1 else 0 := by
    intro a
    simp only [A', A, Matrix.of_apply, Fin.lastCases_last, c]
    split_ifs <;> simp
  show |A.det| = _
  rw [← hdet, Matrix.det_succ_column A' (Fin.last n), Finset.sum_eq_single 0]
  · rw [hcol, if_pos rfl, mul_one, abs_mul, abs_pow, abs_neg, abs_one, one_pow, one_mul, ← Matrix.det_transpose (edgeMat n x)]
    congr 2
    ext a b
    simp only [Matrix.submatrix_apply, Fin.succAbove_last, A', A, Matrix.of_apply, Fin.lastCases_castSucc, c, Matrix.transpose_apply, edgeMat]
    simp [Fin.succAbove, Fin.succ_ne_zero]
    ring
  · intro b _ hb
    rw [hcol, if_neg hb]; ring
  · simp

/-- scaling: integral over a dilate -/
theorem integral_dilate (n : ℕ) (a : ℝ) (ha : 0 < a) (K : Set (Fin n → ℝ)) (f : (Fin n → ℝ) → ℝ) :
    ∫ x in a • K, f x = a ^ n * ∫ x in K, f (a • x) := by
  have := Measure.setIntegral_comp_smul (volume : Measure (Fin n → ℝ)) f K (R := a) ha.ne'
  rw [this]
  simp only [Module.finrank_fin_fun, abs_inv, abs_pow, abs_of_pos ha, smul_eq_mul]
  rw [← mul_assoc, mul_inv_cancel₀ (by positivity), one_mul]

theorem hull_smul (n : ℕ) (a : ℝ) (rs : List (List ℤ)) :
    a • hull n rs = convexHull ℝ {x | ∃ r ∈ rs, x = a • chart n r} := by
  unfold hull
  rw [← convexHull_smul]
  congr 1
  ext x
  simp only [mem_smul_set, mem_ofPred_eq]
  constructor
  · rintro ⟨y, ⟨r, hr, rfl⟩, rfl⟩; exact ⟨r, hr, rfl⟩
  · rintro ⟨r, hr, rfl⟩; exact ⟨_, ⟨r, hr, rfl⟩, rfl⟩

end Verif.Valuation
