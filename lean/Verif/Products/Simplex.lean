import Verif.Products.Loops
import Verif.Valuation.Integral

/-! The value computed for one simplex. -/

namespace Verif.Products

open MeasureTheory Set Verif.Trie Verif.Measure Verif.Valuation Latte.Residue

/-- **Specification.** The product of a list of powers of linear forms (as a stored term denotes one, C24). -/
noncomputable def prodPoly (n : ℕ) (fs : List (Term ℚ)) : MvPolynomial (Fin n) ℚ := (fs.map (linFormPoly n)).prod

theorem polyAt_prod (n : ℕ) (fs : List (Term ℚ)) (x : Fin n → ℝ) : polyAt (prodPoly n fs) x = (fs.map fun t => polyAt (linFormPoly n t) x).prod := by
  unfold prodPoly
  induction fs with
  | nil => simp [polyAt]
  | cons t fs ih =>
    simp only [List.map_cons, List.prod_cons]
    rw [← ih]
    simp [polyAt]

theorem factorialDim_eq (k : ℕ) : factorialDim k = (k.factorial : ℤ) := by
  unfold factorialDim
  have : ∀ m, (List.range m).foldl (fun (a : ℤ) (i : ℕ) => a * ((i + 2 : ℕ) : ℤ)) 1 = ((m + 1).factorial : ℤ) := by
    intro m
    induction m with
    | zero => simp
    | succ m ih =>
      rw [List.range_succ, List.foldl_append, ih, List.foldl_cons, List.foldl_nil, Nat.factorial_succ (m + 1)]
      push_cast; ring
  rw [this]
  cases k with
  | zero => simp
  | succ k => simp

theorem foldl_sum_nat (l : List ℕ) : l.foldl (fun a m => a + m) 0 = l.sum := by rw [List.sum_eq_foldl]

theorem foldl_coef (fs : List (Term ℚ)) : fs.foldl (fun a t => a * t.coef) (1 : ℚ) = (fs.map (·.coef)).prod := by
  have : ∀ a, fs.foldl (fun a t => a * t.coef) a = a * (fs.map (·.coef)).prod := by
    induction fs with
    | nil => intro a; simp
    | cons t fs ih => intro a; rw [List.foldl_cons, ih, List.map_cons, List.prod_cons, mul_assoc]
  rw [this, one_mul]

theorem deg_expOf (Ms : List ℕ) : deg (expOf Ms) = Ms.sum := by
  unfold deg expOf
  simp only [Finsupp.equivFunOnFinite_symm_apply_apply]
  rw [← List.sum_ofFn, ofFn_getD]

theorem vecOf_expOf (Ms : List ℕ) : vecOf Ms.length (Ms.map fun m : ℕ => (m : ℤ)) = expHom Ms.length (expOf Ms) := by
  funext j
  simp [vecOf, expHom, expOf]

/-- the coefficient looked for -/
noncomputable def kappa (n : ℕ) (c : List (List ℤ)) (fs : List (Term ℚ)) : ℚ :=
  MvPolynomial.coeff (expOf (fs.map fun t => t.degree.toNat))
    (hom (n + 1) (fs.map fun t => t.degree.toNat).sum fun i : Fin (n + 1) => lin fun j => (innerAt fs ((c.map fun r => r.take n).getD i []) j : ℚ))

/-- the factor before the coefficient -/
noncomputable def scaleOf (v : ℤ) (n : ℕ) (fs : List (Term ℚ)) : ℚ :=
  (fs.map (·.coef)).prod * (v : ℚ) / (((fs.map fun t => t.degree.toNat).sum + n).factorial : ℚ)

theorem integrateProducts_eq (n : ℕ) (c : List (List ℤ)) (S : Simplex) (hS : simplexOf n (n + 1) c = some S) (fs : List (Term ℚ))
    (hfs : fs ≠ []) : ∃ K, ∀ fuel rounds, K ≤ fuel → K ≤ rounds →
      integrateProducts fuel rounds S fs.length fs = if kappa n c fs = 0 then none else some (scaleOf S.v n fs * kappa n c fs) := by
  have hlen : 0 < (fs.map fun t => t.degree.toNat).length := by rw [List.length_map]; exact List.length_pos_of_ne_nil hfs
  obtain ⟨s0, t0, e0, e0', R0⟩ := insertAll_reps (fs.map fun t => t.degree.toNat).length hlen [(⟨1, ((fs.map fun t => t.degree.toNat)).map fun _ => 0, -1⟩ : Term ℚ)] (by
    intro x hx
    rw [List.mem_singleton] at hx
    subst hx
    exact ⟨rfl, by simp⟩) ⟨_, List.mem_singleton.2 rfl, one_ne_zero⟩
  have hA0 : Agrees (expOf (fs.map fun t => t.degree.toNat)) (toPoly (fs.map fun t => t.degree.toNat).length [(⟨1, ((fs.map fun t => t.degree.toNat)).map fun _ => 0, -1⟩ : Term ℚ)]) 1 := by
    refine ⟨1, ?_, fun n _ => rfl⟩
    rw [map_one]
    unfold toPoly
    rw [List.map_singleton, List.sum_singleton, AddMonoidAlgebra.one_def]
    congr 1
    funext j
    unfold vecOf
    have hj : (j : ℕ) < fs.length := by have := j.2; simpa using this
    rw [List.getD_eq_getElem _ _ (by simpa using hj)]
    simp
  obtain ⟨t', p', K, e, R', A'⟩ := vertexLoop_spec fs hfs (fs.map fun t => t.degree.toNat).sum (by rw [deg_expOf]) ((List.range (S.d + 1)).map fun i => S.s.getD i []) t0 _ 1 R0 hA0
    (by simp)
  obtain ⟨out, K', d, hdel⟩ := reps_drain (fs.map fun t => t.degree.toNat).length hlen t' p' R'
  have hfind := findCoef_spec (fs.map fun t => t.degree.toNat).length out p' hdel (((fs.map fun t => t.degree.toNat)).map fun m : ℕ => (m : ℤ)) (by simp)
  have hSd : S.d = n ∧ S.s = c.map fun r => r.take n := by
    unfold simplexOf at hS
    split_ifs at hS
    simp only [Option.some.injEq, Nat.add_sub_cancel] at hS
    subst hS
    exact ⟨rfl, rfl⟩
  have hk : p'.coeff (vecOf (fs.map fun t => t.degree.toNat).length (((fs.map fun t => t.degree.toNat)).map fun m : ℕ => (m : ℤ))) = kappa n c fs := by
    rw [vecOf_expOf, A'.coeff _ le_rfl, one_mul]
    unfold kappa
    have hprod : (List.map (fun s => geo (fs.map fun t => t.degree.toNat).sum fun j => (innerAt fs s j : ℚ)) (List.map (fun i => S.s.getD i []) (List.range (S.d + 1)))).prod =
        ∏ i : Fin (n + 1), geo (fs.map fun t => t.degree.toNat).sum fun j => (innerAt fs ((c.map fun r => r.take n).getD i []) j : ℚ) := by
      rw [List.map_map, hSd.1, hSd.2, ← List.prod_ofFn]
      congr 1
      apply List.ext_getElem
      · simp
      · intro i h1 h2
        simp only [List.getElem_map, List.getElem_range, List.getElem_ofFn, Function.comp]
    rw [hprod, coeff_prod_geo _ _ _ (by rw [deg_expOf]), deg_expOf]
  refine ⟨max K K', fun fuel rounds h1 h2 => ?_⟩
  unfold integrateProducts
  simp only
  rw [if_neg (by simp)]
  have hins : insertSum (⟨0, (fs.map fun t => t.degree.toNat).length, none⟩ : Sum ℚ) ⟨1, ((fs.map fun t => t.degree.toNat)).map fun _ => 0, -1⟩ = some s0 := e0
  rw [hins, Option.bind_some, e0', e fuel rounds (by omega) (by omega), Option.bind_some, d fuel rounds (by omega) (by omega), Option.bind_some,
    hfind, hk]
  by_cases h0 : kappa n c fs = 0
  · rw [if_pos h0, if_pos h0]; rfl
  · rw [if_neg h0, if_neg h0, Option.map_some, foldl_coef, foldl_sum_nat, factorialDim_eq, hSd.1]
    simp [scaleOf]

/-- the value is the integral -/
theorem value_integral (n : ℕ) (c : List (List ℤ)) (S : Simplex) (hS : simplexOf n (n + 1) c = some S) (fs : List (Term ℚ))
    (hl : ∀ t ∈ fs, t.exps.length = n) :
    ((scaleOf S.v n fs * kappa n c fs : ℚ) : ℝ) = ∫ x in convexHull ℝ (range (cornersR n c)), polyAt (prodPoly n fs) x := by
  have hD : (fs.map fun t => t.degree.toNat).length = fs.length := by simp 
  have hpt : ∀ x : Fin n → ℝ, polyAt (prodPoly n fs) x = ((fs.map fun t => (t.coef : ℝ) / (t.degree.toNat.factorial : ℝ)).prod) *
      ∏ j : Fin (fs.map fun t => t.degree.toNat).length, (∑ i : Fin n, (((fs.getD j ⟨0, [], 0⟩).exps.getD i 0 : ℤ) : ℝ) * x i) ^ expOf (fs.map fun t => t.degree.toNat) j := by
    intro x
    rw [polyAt_prod]
    have h1 : (∏ j : Fin (fs.map fun t => t.degree.toNat).length, (∑ i : Fin n, (((fs.getD j ⟨0, [], 0⟩).exps.getD i 0 : ℤ) : ℝ) * x i) ^ expOf (fs.map fun t => t.degree.toNat) j) =
        (fs.map fun t => (∑ i : Fin n, ((t.exps.getD i 0 : ℤ) : ℝ) * x i) ^ t.degree.toNat).prod := by
      rw [← List.prod_ofFn]
      congr 1
      apply List.ext_getElem
      · simp [hD]
      · intro i h1 h2
        simp [expOf]
    rw [h1, ← List.prod_map_mul]
    congr 1
    apply List.map_congr_left
    intro t _
    rw [polyAt_linFormPoly]
  simp only [hpt]
  rw [integral_const_mul, integral_simplex_product n (fs.map fun t => t.degree.toNat).length (cornersR n c) (fun j i => (((fs.getD j ⟨0, [], 0⟩).exps.getD i 0 : ℤ) : ℝ)) (expOf (fs.map fun t => t.degree.toNat)),
    deg_expOf]
  have hk : ((kappa n c fs : ℚ) : ℝ) = MvPolynomial.coeff (expOf (fs.map fun t => t.degree.toNat)) (hom (n + 1) (fs.map fun t => t.degree.toNat).sum fun i => lin fun j : Fin (fs.map fun t => t.degree.toNat).length =>
      ∑ k : Fin n, (((fs.getD j ⟨0, [], 0⟩).exps.getD k 0 : ℤ) : ℝ) * cornersR n c i k) := by
    unfold kappa
    rw [← eq_ratCast (Rat.castHom ℝ), ← MvPolynomial.coeff_map, hom_map (MvPolynomial.map (Rat.castHom ℝ))]
    congr 2
    funext i
    unfold lin
    rw [map_sum]
    apply Finset.sum_congr rfl
    intro j _
    rw [map_mul, MvPolynomial.map_C, MvPolynomial.map_X]
    congr 2
    have hj : (j : ℕ) < fs.length := by have := j.2; omega
    have hlj : (fs.getD j ⟨0, [], 0⟩).exps.length = n := by
      rw [List.getD_eq_getElem _ _ hj]; exact hl _ (List.getElem_mem _)
    unfold innerAt
    beta_reduce
    rw [hlj, innerPro_eq]
    simp only [eq_ratCast]
    push_cast
    apply Finset.sum_congr rfl
    intro k _
    rw [map_take_getD n c i k k.2, mul_comm]
    rfl
  rw [← hk]
  have hdet : ((S.v : ℤ) : ℝ) = |(edgeMat n (cornersR n c)).det| := by
    unfold simplexOf at hS
    split_ifs at hS with hc
    simp only [Option.some.injEq, Nat.add_sub_cancel] at hS
    subst hS
    simp only
    rw [Int.cast_abs, ← Matrix.det_transpose (edgeMat n _)]
    congr 1
    push_cast
    congr 1
    ext i j
    simp only [Matrix.map_apply, Matrix.of_apply, Matrix.transpose_apply, edgeMat, cornersR, map_take_getD n c _ j j.2]
    push_cast
    rfl
  rw [← hdet]
  unfold scaleOf
  have hfac : (∏ j : Fin (fs.map fun t => t.degree.toNat).length, (expOf (fs.map fun t => t.degree.toNat) j).factorial : ℕ) = (fs.map fun t => t.degree.toNat.factorial).prod := by
    rw [← List.prod_ofFn]
    congr 1
    apply List.ext_getElem
    · simp [hD]
    · intro i h1 h2
      simp [expOf]
  rw [hfac]
  have hsplit : (((fs.map (·.coef)).prod : ℚ) : ℝ) = (fs.map fun t => (t.coef : ℝ) / (t.degree.toNat.factorial : ℝ)).prod *
      (((fs.map fun t => t.degree.toNat.factorial).prod : ℕ) : ℝ) := by
    clear hk hfac hpt hdet hD hl
    induction fs with
    | nil => simp
    | cons t fs ih =>
      have h1 : (t.degree.toNat.factorial : ℝ) ≠ 0 := by exact_mod_cast Nat.factorial_ne_zero _
      simp only [List.map_cons, List.prod_cons]
      push_cast at ih ⊢
      rw [ih]
      field_simp
  push_cast at hsplit ⊢
  rw [hsplit]
  have h3 : (((fs.map fun t => t.degree.toNat).sum + n).factorial : ℝ) ≠ 0 := by exact_mod_cast Nat.factorial_ne_zero _
  field_simp

end Verif.Products
