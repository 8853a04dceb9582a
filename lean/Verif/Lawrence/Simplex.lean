import Verif.Lawrence.Props

/-! Lawrence's formula holds for the tangent cones of every simplex (so the hypothesis of C48 is met). -/

namespace Latte.Lawrence

open Latte.Residue PowerSeries

/-- edge vector -/
def subL (a b : List Int) : List Int := List.zipWith (· - ·) a b

/-- the tangent cones of the simplex with vertices `s 0, ..., s n`: at vertex `i` the rays are the edges `s j - s i`. -/
def simplexCones (n : Nat) (s : Fin (n + 1) → List Int) : List Cone :=
  List.ofFn fun i => ⟨s i, List.ofFn fun j : Fin n => subL (s (i.succAbove j)) (s i)⟩

/-- homogenised vertex matrix -/
def homMat (n : Nat) (s : Fin (n + 1) → List Int) : Matrix (Fin (n + 1)) (Fin (n + 1)) Int :=
  Matrix.of fun a b => Fin.lastCases (motive := fun _ => Int) 1 (fun a' : Fin n => (s b).getD a' 0) a

/-- normalised volume: `|det|` of the homogenised vertex matrix -/
def simplexVol (n : Nat) (s : Fin (n + 1) → List Int) : Int := |(homMat n s).det|

theorem subL_getD (n : Nat) (a b : List Int) (ha : a.length = n) (hb : b.length = n) (i : Nat) (hi : i < n) :
    (subL a b).getD i 0 = a.getD i 0 - b.getD i 0 := by
  unfold subL
  rw [List.getD_eq_getElem _ _ (by simp; omega), List.getD_eq_getElem _ _ (by omega), List.getD_eq_getElem _ _ (by omega),
    List.getElem_zipWith]

theorem absDet_simplex (n : Nat) (s : Fin (n + 1) → List Int) (hs : ∀ i, (s i).length = n) (i : Fin (n + 1)) :
    absDet n (List.ofFn fun j : Fin n => subL (s (i.succAbove j)) (s i)) = simplexVol n s := by
  let c : Fin (n + 1) → Int := fun b => if b = i then 0 else -1
  let H' : Matrix (Fin (n + 1)) (Fin (n + 1)) Int := Matrix.of fun a b => homMat n s a b + c b * homMat n s a i
  have hdet : H'.det = (homMat n s).det := by
    rw [← Matrix.det_transpose, ← Matrix.det_transpose (homMat n s)]
    exact Matrix.det_eq_of_forall_row_eq_smul_add_const c i (by simp [c]) (fun a b => by simp [H', Matrix.transpose_apply])
  have hrow : ∀ b, H' (Fin.last n) b = if b = i then 1 else 0 := by
    intro b
    simp only [H', Matrix.of_apply, homMat, Fin.lastCases_last, c]
    split_ifs <;> simp
  unfold absDet simplexVol
  rw [← hdet, Matrix.det_succ_row H' (Fin.last n), Finset.sum_eq_single i]
  · rw [hrow, if_pos rfl, mul_one, abs_mul, abs_pow, abs_neg, abs_one, one_pow, one_mul]
    congr 2
    ext a b
    simp only [Matrix.submatrix_apply, Matrix.of_apply, Fin.succAbove_last, H', homMat, Fin.lastCases_castSucc, c]
    rw [if_neg (Fin.succAbove_ne i b)]
    have h1 : (List.ofFn fun j : Fin n => subL (s (i.succAbove j)) (s i)).getD (b : ℕ) [] = subL (s (i.succAbove b)) (s i) := by
      rw [List.getD_eq_getElem _ _ (by simp)]; simp
    rw [h1, subL_getD n _ _ (hs _) (hs _) _ a.2]; ring
  · intro b _ hb
    rw [hrow, if_neg hb]; ring
  · simp

/-- `h_m` of a list of polynomials -/
noncomputable def hpoly (n : Nat) : Nat → List (MvPolynomial (Fin n) ℚ) → MvPolynomial (Fin n) ℚ
  | 0, _ => 1
  | _ + 1, [] => 0
  | m + 1, x :: xs => x * hpoly n m (x :: xs) + hpoly n (m + 1) xs
termination_by m xs => m + xs.length

theorem hpoly_eval (n : Nat) (x : Fin n → ℚ) : ∀ (k m : Nat) (ps : List (MvPolynomial (Fin n) ℚ)), m + ps.length = k →
    MvPolynomial.eval x (hpoly n m ps) = hsum m (ps.map (MvPolynomial.eval x)) := by
  intro k
  induction k using Nat.strong_induction_on with
  | _ k ih =>
    intro m ps hk
    cases m with
    | zero => rw [hpoly, hsum]; simp
    | succ m =>
      cases ps with
      | nil => rw [hpoly, List.map_nil, hsum]; simp
      | cons p ps =>
        rw [hpoly, List.map_cons, hsum, map_add, map_mul]
        simp only [List.length_cons] at hk
        rw [ih (m + (ps.length + 1)) (by omega) m (p :: ps) (by simp),
          ih (m + 1 + ps.length) (by omega) (m + 1) ps rfl, List.map_cons]

/-- the linear form `x ↦ <r, x>` as a polynomial -/
noncomputable def linForm (n : Nat) (r : List Int) : MvPolynomial (Fin n) ℚ := ∑ i : Fin n, MvPolynomial.C (r.getD i 0 : ℚ) * MvPolynomial.X i

theorem linForm_eval (n : Nat) (r : List Int) (x : Fin n → ℚ) : MvPolynomial.eval x (linForm n r) = pair r x := by
  unfold linForm pair
  simp

/-- `(m+n)!/m!` times the integral of `<x,·>^m` over the simplex: `|det| h_m(<s_0,x>, ..., <s_n,x>)` -/
noncomputable def simplexPoly (n m : Nat) (s : Fin (n + 1) → List Int) : MvPolynomial (Fin n) ℚ :=
  MvPolynomial.C (simplexVol n s : ℚ) * hpoly n m (List.ofFn fun i => linForm n (s i))

theorem resAt_distinct (n N : Nat) (x : Fin (n + 1) → ℚ) (hx : Function.Injective x) (i : Fin (n + 1)) :
    resAt (List.ofFn x) N (x i) = x i ^ N / ∏ j : Fin n, (x i - x (i.succAbove j)) := by
  unfold resAt
  have hcount : (List.ofFn x).count (x i) = 1 := by
    apply List.count_eq_one_of_mem
    · exact List.nodup_ofFn.2 hx
    · exact List.mem_ofFn.2 ⟨i, rfl⟩
  rw [hcount, Nat.sub_self, coeff_zero_eq_constantCoeff_apply, map_mul, PowerSeries.constantCoeff_inv, map_pow]
  have h1 : constantCoeff (others (List.ofFn x) (x i)) = ∏ j : Fin n, (x i - x (i.succAbove j)) := by
    unfold others
    rw [map_list_prod, List.map_map]
    have h2 : ∀ l : List ℚ, ((l.filter fun z => z ≠ x i).map (constantCoeff ∘ fun z => X + C (x i - z) : ℚ → ℚ)).prod
        = (l.map fun z => if z ≠ x i then x i - z else 1).prod := by
      intro l
      induction l with
      | nil => simp
      | cons a l ih =>
        by_cases h : a ≠ x i
        · rw [List.filter_cons_of_pos (by simpa using h), List.map_cons, List.prod_cons, ih, List.map_cons, List.prod_cons, if_pos h]
          simp
        · rw [List.filter_cons_of_neg (by simpa using h), ih, List.map_cons, List.prod_cons, if_neg h, one_mul]
    rw [h2, List.map_ofFn, List.prod_ofFn, Fin.prod_univ_succAbove _ i]
    simp only [Function.comp, ne_eq, not_true_eq_false, if_false, one_mul]
    apply Finset.prod_congr rfl
    intro j _
    rw [if_pos (fun e => Fin.succAbove_ne i j (hx e))]
  rw [h1, div_eq_mul_inv]
  simp

theorem pair_subL (n : Nat) (a b : List Int) (ha : a.length = n) (hb : b.length = n) (x : Fin n → ℚ) :
    pair (subL a b) x = pair a x - pair b x := by
  unfold pair
  rw [← Finset.sum_sub_distrib]
  apply Finset.sum_congr rfl
  intro i _
  rw [subL_getD n a b ha hb _ i.2]
  push_cast; ring

/-- Lawrence's formula for every simplex with integer vertices. -/
theorem simplex_formula (n m : Nat) (s : Fin (n + 1) → List Int) (hs : ∀ i, (s i).length = n) :
    LawrenceFormula n m (simplexCones n s) (simplexPoly n m s) := by
  intro x hx
  let y : Fin (n + 1) → ℚ := fun i => pair (s i) x
  have hne : ∀ (i : Fin (n + 1)) (j : Fin n), y (i.succAbove j) ≠ y i := by
    intro i j h
    have := hx _ (List.mem_ofFn.2 ⟨i, rfl⟩) _ (List.mem_ofFn.2 ⟨j, rfl⟩)
    rw [pair_subL n _ _ (hs _) (hs _)] at this
    exact this (sub_eq_zero.2 h)
  have hinj : Function.Injective y := by
    intro a b hab
    by_contra hne'
    obtain ⟨j, rfl⟩ := Fin.exists_succAbove_eq (x := b) (y := a) (Ne.symm hne')
    exact hne a j hab.symm
  unfold simplexPoly
  rw [map_mul, MvPolynomial.eval_C, hpoly_eval n x _ _ _ rfl, List.map_ofFn]
  have h1 : (MvPolynomial.eval x ∘ fun i => linForm n (s i)) = y := by
    funext i; exact linForm_eval n (s i) x
  rw [h1, ← resSum_eq_hsum n (List.ofFn y) m (by simp)]
  unfold resSum
  have htf : (List.ofFn y).toFinset = Finset.univ.image y := by
    ext z; rw [List.mem_toFinset, List.mem_ofFn, Finset.mem_image]; simp
  rw [htf, Finset.sum_image (fun a _ b _ h => hinj h), Finset.mul_sum]
  unfold simplexCones
  rw [List.map_ofFn, List.sum_ofFn]
  apply Finset.sum_congr rfl
  intro i _
  simp only [Function.comp]
  rw [resAt_distinct n (m + n) y hinj i, absDet_simplex n s hs i, List.map_ofFn, List.prod_ofFn, mul_div_assoc]
  congr 2
  apply Finset.prod_congr rfl
  intro j _
  simp only [Function.comp]
  rw [pair_subL n _ _ (hs _) (hs _)]
  simp only [y]; ring

theorem simplex_conesOk (n : Nat) (s : Fin (n + 1) → List Int) (hs : ∀ i, (s i).length = n) (hv : simplexVol n s ≠ 0) :
    ConesOk n (simplexCones n s) := by
  intro c hc
  obtain ⟨i, rfl⟩ := List.mem_ofFn.1 hc
  refine ⟨hs i, by simp, ?_, by rw [absDet_simplex n s hs i]; exact hv⟩
  intro r hr
  obtain ⟨j, rfl⟩ := List.mem_ofFn.1 hr
  simp [subL, hs]

/-- C48 for simplices without further hypotheses: for every nondegenerate integer simplex, every list of powers of linear forms
and all random draws, the Lawrence method returns `∑ coe · |det| · h_m(l(s_0), ..., l(s_n)) / (m+n)!`. -/
theorem c48_simplex (n : Nat) (s : Fin (n + 1) → List Int) (hs : ∀ i, (s i).length = n) (hv : simplexVol n s ≠ 0)
    (fs : List Form) (hf : ∀ f ∈ fs, f.l.length = n ∧ (1 ≤ f.m ∨ ∃ x ∈ f.l, x ≠ 0) ∧ f.m + n < 2 ^ 20)
    (draws : List Nat) (v : ℚ) (h : findIntegralUsingLawrence n n (simplexCones n s) fs draws = some v) :
    v = (fs.map fun f => f.coe * ((simplexVol n s : ℚ) * hsum f.m (List.ofFn fun i => ((dot (s i) f.l : Int) : ℚ))) /
      ((n + f.m).factorial : ℚ)).sum := by
  have := c48_findIntegral n (simplexCones n s) (by simp [simplexCones]) (simplex_conesOk n s hs hv) (fun m => simplexPoly n m s) fs
    (fun f _ => simplex_formula n f.m s hs) hf draws v h
  rw [this]
  congr 1
  apply List.map_congr_left
  intro f hfm
  simp only [simplexPoly, map_mul, MvPolynomial.eval_C]
  rw [hpoly_eval n _ _ _ _ rfl, List.map_ofFn]
  congr 5
  funext i
  rw [Function.comp, linForm_eval, dot_pair n _ _ (by rw [hs])]

end Latte.Lawrence
