import Verif.Measure.Simplex
import Mathlib.Algebra.MvPolynomial.Funext
import Mathlib.RingTheory.MvPolynomial.Homogeneous
import Mathlib.Data.Nat.Choose.Multinomial

/-! Mathematics: integrals of products of powers of linear forms over simplices. -/

namespace Verif.Products

open MeasureTheory Set Verif.Measure MvPolynomial

/-- the linear form with coefficients `a` in the variables `t` -/
noncomputable def lin {R : Type} [CommRing R] {D : ℕ} (a : Fin D → R) : MvPolynomial (Fin D) R := ∑ j, C (a j) * X j

theorem lin_isHomogeneous {R : Type} [CommRing R] {D : ℕ} (a : Fin D → R) : (lin a).IsHomogeneous 1 := by
  unfold lin
  apply IsHomogeneous.sum
  intro j _
  have := (isHomogeneous_C (Fin D) (a j)).mul (isHomogeneous_X R j)
  simpa using this

theorem lin_pow {R : Type} [CommRing R] {D : ℕ} (a : Fin D → R) (k : ℕ) :
    lin a ^ k = ∑ e ∈ Finset.Nat.antidiagonalTuple D k, monomial (Finsupp.equivFunOnFinite.symm e)
      ((Nat.multinomial Finset.univ e : R) * ∏ j, a j ^ e j) := by
  unfold lin
  rw [Finset.sum_pow_eq_sum_piAntidiag, Finset.piAntidiag_univ_fin_eq_antidiagonalTuple]
  apply Finset.sum_congr rfl
  intro e _
  rw [monomial_eq, map_mul, map_natCast, mul_assoc]
  congr 1
  simp_rw [mul_pow]
  rw [Finset.prod_mul_distrib, Finsupp.prod_fintype _ _ (by simp), map_prod]
  simp

/-- total degree of an exponent vector -/
def deg {D : ℕ} (n : Fin D →₀ ℕ) : ℕ := ∑ j, n j

theorem coeff_lin_pow {R : Type} [CommRing R] {D : ℕ} (a : Fin D → R) (k : ℕ) (n : Fin D →₀ ℕ) :
    coeff n (lin a ^ k) = if deg n = k then (Nat.multinomial Finset.univ n : R) * ∏ j, a j ^ n j else 0 := by
  classical
  rw [lin_pow, coeff_sum]
  simp_rw [coeff_monomial]
  by_cases h : deg n = k
  · rw [if_pos h, Finset.sum_eq_single (fun j => n j)]
    · rw [if_pos (by ext; simp)]
    · intro e _ hne
      rw [if_neg]
      intro he
      apply hne
      rw [← he]
      funext j
      simp
    · intro hn
      exact absurd (Finset.Nat.mem_antidiagonalTuple.2 h) hn
  · rw [if_neg h]
    apply Finset.sum_eq_zero
    intro e he
    rw [if_neg]
    intro hn
    apply h
    rw [← Finset.Nat.mem_antidiagonalTuple.1 he, ← hn]
    simp [deg]

/-- the polynomial of one vertex: the geometric series of its linear form, up to degree `N` -/
noncomputable def geo {R : Type} [CommRing R] {D : ℕ} (N : ℕ) (a : Fin D → R) : MvPolynomial (Fin D) R := ∑ k ∈ Finset.range (N + 1), lin a ^ k

theorem coeff_geo {R : Type} [CommRing R] {D : ℕ} (N : ℕ) (a : Fin D → R) (n : Fin D →₀ ℕ) (h : deg n ≤ N) :
    coeff n (geo N a) = (Nat.multinomial Finset.univ n : R) * ∏ j, a j ^ n j := by
  unfold geo
  rw [coeff_sum]
  simp_rw [coeff_lin_pow]
  rw [Finset.sum_ite_eq, if_pos (by simpa using Nat.lt_succ_of_le h)]

/-- coefficients of the product over the vertices -/
theorem coeff_prod_geo {R : Type} [CommRing R] {D k : ℕ} (N : ℕ) (a : Fin k → Fin D → R) (n : Fin D →₀ ℕ) (h : deg n ≤ N) :
    coeff n (∏ i, geo N (a i)) = coeff n (hom k (deg n) fun i => lin (a i)) := by
  classical
  unfold geo hom
  rw [Finset.prod_univ_sum, coeff_sum, coeff_sum]
  symm
  refine Finset.sum_subset_zero_on_sdiff ?_ ?_ (fun _ _ => rfl)
  · intro e he
    rw [Finset.Nat.mem_antidiagonalTuple] at he
    rw [Fintype.mem_piFinset]
    intro i
    rw [Finset.mem_range]
    have : e i ≤ ∑ i, e i := Finset.single_le_sum (f := e) (fun _ _ => Nat.zero_le _) (Finset.mem_univ i)
    omega
  · intro e he
    rw [Finset.mem_sdiff, Finset.Nat.mem_antidiagonalTuple] at he
    have hh : (∏ i, lin (a i) ^ e i).IsHomogeneous (∑ i, e i) := by
      apply IsHomogeneous.prod
      intro i _
      have := (lin_isHomogeneous (a i)).pow (e i)
      simpa using this
    apply hh.coeff_eq_zero
    intro hd
    apply he.2
    rw [← hd, Finsupp.degree_eq_sum]
    rfl

/-- **The integral of a product of powers of linear forms over a simplex.** -/
theorem integral_simplex_product (n D : ℕ) (s : Fin (n + 1) → Fin n → ℝ) (l : Fin D → Fin n → ℝ) (M : Fin D →₀ ℕ) :
    ∫ p in convexHull ℝ (range s), ∏ j, (∑ i, l j i * p i) ^ M j =
      |(edgeMat n s).det| * ((∏ j, (M j).factorial : ℕ) : ℝ) / ((deg M + n).factorial : ℝ) *
        coeff M (hom (n + 1) (deg M) fun i => lin fun j => ∑ k, l j k * s i k) := by
  set m := deg M with hm
  set I : (Fin D → ℕ) → ℝ := fun e => ∫ p in convexHull ℝ (range s), ∏ j, (∑ i, l j i * p i) ^ e j with hI
  set p1 : MvPolynomial (Fin D) ℝ := ∑ e ∈ Finset.Nat.antidiagonalTuple D m, monomial (Finsupp.equivFunOnFinite.symm e)
      ((Nat.multinomial Finset.univ e : ℝ) * I e) with hp1
  set p2 : MvPolynomial (Fin D) ℝ := C (|(edgeMat n s).det| * ((m.factorial : ℝ) / ((m + n).factorial : ℝ))) *
      hom (n + 1) m fun i => lin fun j => ∑ k, l j k * s i k with hp2
  have hcomp : IsCompact (convexHull ℝ (range s)) := (finite_range _).isCompact_convexHull (𝕜 := ℝ)
  have heq : p1 = p2 := by
    apply MvPolynomial.funext
    intro t
    have h1 : eval t p1 = ∫ p in convexHull ℝ (range s), (∑ i, (∑ j, t j * l j i) * p i) ^ m := by
      have hpt : ∀ p : Fin n → ℝ, (∑ i, (∑ j, t j * l j i) * p i) ^ m = ∑ e ∈ Finset.Nat.antidiagonalTuple D m,
          ((Nat.multinomial Finset.univ e : ℝ) * ∏ j, t j ^ e j) * ∏ j, (∑ i, l j i * p i) ^ e j := by
        intro p
        have : ∑ i, (∑ j, t j * l j i) * p i = ∑ j, t j * ∑ i, l j i * p i := by
          simp_rw [Finset.sum_mul, Finset.mul_sum]
          rw [Finset.sum_comm]
          simp_rw [mul_assoc]
        rw [this, Finset.sum_pow_eq_sum_piAntidiag, Finset.piAntidiag_univ_fin_eq_antidiagonalTuple]
        apply Finset.sum_congr rfl
        intro e _
        simp_rw [mul_pow]
        rw [Finset.prod_mul_distrib, mul_assoc]
      simp_rw [hpt]
      rw [integral_finsetSum]
      · rw [hp1, map_sum]
        apply Finset.sum_congr rfl
        intro e _
        rw [integral_const_mul, eval_monomial, Finsupp.prod_fintype _ _ (by simp)]
        simp only [Finsupp.equivFunOnFinite_symm_apply_apply]
        rw [hI]
        ring
      · intro e _
        exact (Continuous.continuousOn (by fun_prop)).integrableOn_compact hcomp
    rw [h1, integral_simplex_pow, hp2, map_mul, eval_C, hom_map (eval t), ← mul_assoc]
    congr 2
    funext i
    unfold lin
    simp only [map_sum, map_mul, eval_C, eval_X, Finset.sum_mul]
    rw [Finset.sum_comm]
    apply Finset.sum_congr rfl
    intro j _
    apply Finset.sum_congr rfl
    intro k _
    ring
  have hc := congrArg (coeff M) heq
  have hc1 : coeff M p1 = (Nat.multinomial Finset.univ M : ℝ) * I M := by
    classical
    rw [hp1, coeff_sum]
    simp_rw [coeff_monomial]
    rw [Finset.sum_eq_single (fun j => M j)]
    · rw [if_pos (by ext; simp)]
    · intro e _ hne
      rw [if_neg]
      intro he
      apply hne
      rw [← he]
      funext j
      simp
    · intro hn
      exact absurd (Finset.Nat.mem_antidiagonalTuple.2 rfl) hn
  rw [hc1, hp2, coeff_C_mul] at hc
  have hmul : ((∏ j, (M j).factorial : ℕ) : ℝ) * (Nat.multinomial Finset.univ M : ℝ) = (m.factorial : ℝ) := by
    have := Nat.multinomial_spec Finset.univ (fun j => M j)
    rw [hm]
    exact_mod_cast this
  have hpos : (Nat.multinomial Finset.univ M : ℝ) ≠ 0 := by
    have := Nat.multinomial_pos Finset.univ (fun j => M j)
    exact_mod_cast this.ne'
  have h3 : ((m + n).factorial : ℝ) ≠ 0 := by exact_mod_cast Nat.factorial_ne_zero _
  change I M = _
  apply mul_left_cancel₀ hpos
  rw [hc, ← hmul]
  field_simp

end Verif.Products
