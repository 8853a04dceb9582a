import Verif.Valuation.Volume
import Verif.Residue.Props

/-! Integrals of powers of linear forms over triangulated polytopes. -/

namespace Verif.Valuation

open MeasureTheory Set Verif.Measure Verif.Trie Latte.Residue
open scoped Pointwise

/-- value of a power of a linear form -/
theorem polyAt_linFormPoly (n : ℕ) (t : Term ℚ) (x : Fin n → ℝ) :
    polyAt (linFormPoly n t) x = ((t.coef : ℝ) / (t.degree.toNat.factorial : ℝ)) *
      (∑ j : Fin n, ((t.exps.getD j 0 : ℤ) : ℝ) * x j) ^ t.degree.toNat := by
  unfold polyAt linFormPoly
  simp only [map_mul, map_pow, map_sum, MvPolynomial.aeval_C, MvPolynomial.aeval_X]
  congr 1
  simp

theorem polyAt_add {n : ℕ} (p q : MvPolynomial (Fin n) ℚ) (x : Fin n → ℝ) : polyAt (p + q) x = polyAt p x + polyAt q x := by
  simp [polyAt]

theorem polyAt_formsPoly (n : ℕ) (fs : List (Term ℚ)) (x : Fin n → ℝ) :
    polyAt (formsPoly n fs) x = (fs.map fun t => polyAt (linFormPoly n t) x).sum := by
  unfold formsPoly
  induction fs with
  | nil => simp [polyAt]
  | cons t fs ih => simp only [List.map_cons, List.sum_cons]; rw [polyAt_add, ih]

theorem innerPro_eq (n : ℕ) (l s : List ℤ) : innerPro n l s = ∑ j : Fin n, l.getD j 0 * s.getD j 0 := by
  unfold innerPro
  induction n with
  | zero => simp
  | succ n ih => rw [List.range_succ, List.foldl_append, ih, List.foldl_cons, List.foldl_nil, Fin.sum_univ_castSucc]; rfl

/-- the vertices used for integration -/
noncomputable def cornersR (n : ℕ) (c : List (List ℤ)) (j : Fin (n + 1)) : Fin n → ℝ := fun i => (((c.getD j []).getD i 0 : ℤ) : ℝ)

theorem take_getD (r : List ℤ) (n i : ℕ) (h : i < n) : (r.take n).getD i 0 = r.getD i 0 := by
  simp [List.getD_eq_getElem?_getD, h]

theorem map_take_getD (n : ℕ) (c : List (List ℤ)) (j i : ℕ) (h : i < n) :
    ((c.map fun r => r.take n).getD j []).getD i 0 = (c.getD j []).getD i 0 := by
  rw [← take_getD (c.getD j []) n i h]
  congr 1
  simp only [List.getD_eq_getElem?_getD, List.getElem?_map]
  cases c[j]? <;> simp

theorem ofFn_range {α : Type} (n : ℕ) (f : ℕ → α) : (List.range n).map f = List.ofFn fun i : Fin n => f i := by
  apply List.ext_getElem <;> simp

/-- the value of one stored form is its integral over the simplex -/
theorem formValue_integral (n : ℕ) (c : List (List ℤ)) (S : Simplex) (hS : simplexOf n (n + 1) c = some S) (t : Term ℚ) :
    ((formValue S (toLForm t) : ℚ) : ℝ) = ∫ x in convexHull ℝ (range (cornersR n c)), polyAt (linFormPoly n t) x := by
  unfold simplexOf at hS
  split_ifs at hS with hc
  simp only [Option.some.injEq, Nat.add_sub_cancel] at hS
  subst hS
  simp only [polyAt_linFormPoly]
  rw [integral_const_mul, integral_simplex_pow]
  unfold formValue
  have hvals : castL (formValues (⟨n, c.map fun r => r.take n, |Matrix.det (Matrix.of fun (i j : Fin n) =>
      ((c.map fun r => r.take n).getD (i + 1) []).getD j 0 - ((c.map fun r => r.take n).getD 0 []).getD j 0)|⟩ : Simplex) (toLForm t).l) =
      List.ofFn fun j : Fin (n + 1) => ∑ i : Fin n, ((t.exps.getD i 0 : ℤ) : ℚ) * (((c.getD j []).getD i 0 : ℤ) : ℚ) := by
    unfold castL formValues
    rw [List.map_map, ofFn_range]
    congr 1
    funext j
    simp only [Function.comp, toLForm, innerPro_eq]
    push_cast
    apply Finset.sum_congr rfl
    intro i _
    rw [map_take_getD n c j i i.2]
  rw [hvals, hsum_eq_hom]
  have hdet : ((|Matrix.det (Matrix.of fun (i j : Fin n) =>
      ((c.map fun r => r.take n).getD (i + 1) []).getD j 0 - ((c.map fun r => r.take n).getD 0 []).getD j 0)| : ℤ) : ℝ) =
      |(edgeMat n (cornersR n c)).det| := by
    rw [Int.cast_abs, ← Matrix.det_transpose (edgeMat n _)]
    congr 1
    push_cast
    congr 1
    ext i j
    simp only [Matrix.map_apply, Matrix.of_apply, Matrix.transpose_apply, edgeMat, cornersR, map_take_getD n c _ j j.2]
    push_cast
    rfl
  have hh := hom_map (Rat.castHom ℝ) (n + 1) t.degree.toNat (fun j : Fin (n + 1) => ∑ i : Fin n, ((t.exps.getD i 0 : ℤ) : ℚ) * (((c.getD j []).getD i 0 : ℤ) : ℚ))
  have hh' : ((hom (n + 1) t.degree.toNat (fun j : Fin (n + 1) => ∑ i : Fin n, ((t.exps.getD i 0 : ℤ) : ℚ) * (((c.getD j []).getD i 0 : ℤ) : ℚ)) : ℚ) : ℝ) =
      hom (n + 1) t.degree.toNat (fun j => ∑ i : Fin n, ((t.exps.getD i 0 : ℤ) : ℝ) * cornersR n c j i) := by
    rw [← eq_ratCast (Rat.castHom ℝ), hh]
    congr 1
    funext j
    simp [cornersR]
  rw [← hh', ← hdet]
  generalize |Matrix.det (Matrix.of fun (i j : Fin n) =>
      ((c.map fun r => r.take n).getD (i + 1) []).getD j 0 - ((c.map fun r => r.take n).getD 0 []).getD j 0)| = v
  simp only [toLForm]
  generalize hom (n + 1) t.degree.toNat (fun j : Fin (n + 1) => ∑ i : Fin n, ((t.exps.getD i 0 : ℤ) : ℚ) * (((c.getD j []).getD i 0 : ℤ) : ℚ)) = H
  have hq : ((t.coef.num : ℤ) : ℚ) / (t.coef.den : ℚ) = t.coef := Rat.num_div_den t.coef
  have hq' : ((t.coef.num : ℤ) : ℚ) / (((t.coef.den : ℕ) : ℤ) : ℚ) = t.coef := by simpa using hq
  rw [hq']
  push_cast
  have h1 : (t.degree.toNat.factorial : ℝ) ≠ 0 := by exact_mod_cast Nat.factorial_ne_zero _
  field_simp

theorem corners_hull (n : ℕ) (c : List (List ℤ)) (hc : c.length = n + 1) (a : ℤ) (ha : a ≠ 0) (hl : ∀ r ∈ c, r.getD n 0 = a) :
    convexHull ℝ (range (cornersR n c)) = (a : ℝ) • hull n c := by
  have ha' : (a : ℝ) ≠ 0 := by exact_mod_cast ha
  rw [hull_simplex n c hc, ← convexHull_smul]
  congr 1
  ext x
  simp only [mem_range, mem_smul_set]
  have hj : ∀ j : Fin (n + 1), (a : ℝ) • chart n (c.getD j []) = cornersR n c j := by
    intro j
    funext i
    simp only [Pi.smul_apply, smul_eq_mul, chart, cornersR, hl _ (getD_mem c j (by omega))]
    field_simp
  constructor
  · rintro ⟨j, rfl⟩; exact ⟨_, ⟨j, rfl⟩, hj j⟩
  · rintro ⟨y, ⟨j, rfl⟩, rfl⟩; exact ⟨j, (hj j).symm⟩

/-- stored forms that the integration routine handles -/
structure FormsOk (n : ℕ) (fs : List (Term ℚ)) : Prop where
  ne : fs ≠ []
  deg : ∀ t ∈ fs, 0 < t.degree ∧ t.degree + n < 2 ^ 20

theorem simplex_value (n : ℕ) (hn : n < 1000) (c : List (List ℤ)) (hc : c.length = n + 1) (a : ℤ) (ha : 0 < a)
    (hl : ∀ r ∈ c, r.getD n 0 = a) (fs : List (Term ℚ)) (hf : FormsOk n fs) :
    ∃ S x y, simplexOf n (n + 1) c = some S ∧ integrateLinFormSum S (fs.map toLForm) = some (x, y) ∧ y ≠ 0 ∧
      (((x : ℚ) / y : ℚ) : ℝ) = ∫ x in (a : ℝ) • hull n c, polyAt (formsPoly n fs) x := by
  obtain ⟨S, hS⟩ : ∃ S, simplexOf n (n + 1) c = some S := by
    unfold simplexOf; rw [if_pos ⟨hc, rfl⟩]; exact ⟨_, rfl⟩
  have hd : S.d = n := by
    unfold simplexOf at hS; rw [if_pos ⟨hc, rfl⟩] at hS; simp only [Option.some.injEq] at hS; subst hS; rfl
  obtain ⟨x, y, e, hy, _, hv⟩ := c26_integrateLinFormSum S (by omega) (fs.map toLForm) (by simpa using hf.ne) (by
    intro f hf'
    obtain ⟨t, ht, rfl⟩ := List.mem_map.1 hf'
    have := hf.deg t ht
    refine ⟨by simp [toLForm], ?_, ?_⟩
    · simp only [toLForm, hd]; omega
    · simp only [toLForm]; omega)
  refine ⟨S, x, y, hS, e, hy.ne', ?_⟩
  rw [hv, ← corners_hull n c hc a ha.ne' hl]
  simp only [polyAt_formsPoly]
  have hcomp : IsCompact (convexHull ℝ (range (cornersR n c))) := (finite_range _).isCompact_convexHull (𝕜 := ℝ)
  clear hv e hf
  induction fs with
  | nil => simp
  | cons t fs ih =>
    simp only [List.map_cons, List.sum_cons]
    rw [Rat.cast_add, ih, formValue_integral n c S hS, integral_add]
    · exact (polyAt_continuous _).continuousOn.integrableOn_compact hcomp
    · have : Continuous fun x => (fs.map fun t => polyAt (linFormPoly n t) x).sum := by
        have : (fun x => (fs.map fun t => polyAt (linFormPoly n t) x).sum) = polyAt (formsPoly n fs) := by
          funext x; rw [polyAt_formsPoly]
        rw [this]; exact polyAt_continuous _
      exact this.continuousOn.integrableOn_compact hcomp

theorem simplexLoop_spec (n : ℕ) (hn : n < 1000) (a : ℤ) (ha : 0 < a) (fs : List (Term ℚ)) (hf : FormsOk n fs) (cs : List VCone)
    (h : ∀ c ∈ cs, c.rays.length = n + 1 ∧ ∀ r ∈ c.rays, r.getD n 0 = a) :
    ∀ s : ℚ, ∃ v : ℚ, simplexLoop n (n + 1) fs cs s = some v ∧
      (v : ℝ) = s + (cs.map fun c => ∫ x in (a : ℝ) • hull n c.rays, polyAt (formsPoly n fs) x).sum := by
  induction cs with
  | nil => intro s; exact ⟨s, rfl, by simp⟩
  | cons c cs ih =>
    intro s
    obtain ⟨S, x, y, e1, e2, hy, hv⟩ := simplex_value n hn c.rays (h c (by simp)).1 a ha (h c (by simp)).2 fs hf
    obtain ⟨w, e', hw⟩ := ih (fun k hk => h k (by simp [hk])) (s + (x : ℚ) / y)
    refine ⟨w, ?_, ?_⟩
    · rw [simplexLoop, e1, Option.bind_some, e2, Option.bind_some, if_neg hy]; exact e'
    · rw [hw, List.map_cons, List.sum_cons, ← hv]; push_cast; ring

/-- the sum over the simplices of a triangulation is the integral over the dilated polytope -/
theorem simplexLoop_triangulated (n : ℕ) (hn : n < 1000) (a : ℤ) (ha : 0 < a) (fs : List (Term ℚ)) (hf : FormsOk n fs)
    (rs : List (List ℤ)) (hrs : ∀ r ∈ rs, r.getD n 0 = a) (cs : List VCone) (h : Triangulates n rs (cs.map (·.rays))) :
    ∃ v : ℚ, simplexLoop n (n + 1) fs cs 0 = some v ∧
      (v : ℝ) = ∫ x in (a : ℝ) • hull n rs, polyAt (formsPoly n fs) x := by
  have haR : (0:ℝ) < a := by exact_mod_cast ha
  obtain ⟨v, e, hv⟩ := simplexLoop_spec n hn a ha fs hf cs (fun c hc =>
    ⟨h.size _ (List.mem_map.2 ⟨c, hc, rfl⟩), fun r hr => hrs r (h.sub _ (List.mem_map.2 ⟨c, hc, rfl⟩) r hr)⟩) 0
  refine ⟨v, e, ?_⟩
  rw [hv, integral_dilate n a haR, h.cover, integral_triangulated n (fun x => polyAt (formsPoly n fs) ((a:ℝ) • x))
    ((polyAt_continuous _).comp (continuous_const_smul _)) _ h.overlap, ← List.sum_map_mul_left, List.map_map]
  rw [Rat.cast_zero, zero_add]
  congr 1
  apply List.map_congr_left
  intro c _
  rw [integral_dilate n a haR]
  rfl

end Verif.Valuation
