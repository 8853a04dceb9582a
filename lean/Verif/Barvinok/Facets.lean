import Verif.Barvinok.Model
import Verif.Barvinok.Spec
import Mathlib.Tactic.Ring
import Mathlib.Tactic.FieldSimp
import Mathlib.Algebra.Order.BigOperators.Group.Finset

/-!
# Facets of a simplicial cone (C15)
-/

namespace Verif.Barvinok

open Spec Matrix

theorem foldl_gcd_dvd {n : ℕ} (v : Vec n) (l : List (Fin n)) (g : ℤ) :
    (l.foldl (fun (g : ℤ) j => (Int.gcd g (v j) : ℤ)) g ∣ g) ∧
    ∀ j ∈ l, l.foldl (fun (g : ℤ) j => (Int.gcd g (v j) : ℤ)) g ∣ v j := by
  induction l generalizing g with
  | nil => simp
  | cons a l ih =>
    obtain ⟨h1, h2⟩ := ih (Int.gcd g (v a))
    simp only [List.foldl_cons, List.mem_cons]
    refine ⟨h1.trans (Int.gcd_dvd_left ..), ?_⟩
    rintro j (rfl | hj)
    · exact h1.trans (Int.gcd_dvd_right ..)
    · exact h2 j hj

theorem dvd_foldl_gcd {n : ℕ} (v : Vec n) (l : List (Fin n)) (g d : ℤ) (hg : d ∣ g)
    (h : ∀ j, d ∣ v j) : d ∣ l.foldl (fun (g : ℤ) j => (Int.gcd g (v j) : ℤ)) g := by
  induction l generalizing g with
  | nil => simpa
  | cons a l ih => exact ih _ (Int.dvd_coe_gcd hg (h a))

theorem foldl_gcd_nonneg {n : ℕ} (v : Vec n) (l : List (Fin n)) (g : ℤ) (hg : 0 ≤ g) :
    0 ≤ l.foldl (fun (g : ℤ) j => (Int.gcd g (v j) : ℤ)) g := by
  induction l generalizing g with
  | nil => simpa
  | cons a l ih => exact ih _ (by positivity)

theorem rowGcd_dvd {n : ℕ} (v : Vec n) (j : Fin n) : rowGcd v ∣ v j :=
  (foldl_gcd_dvd v _ 0).2 j (List.mem_finRange j)

theorem dvd_rowGcd {n : ℕ} (v : Vec n) (d : ℤ) (h : ∀ j, d ∣ v j) : d ∣ rowGcd v :=
  dvd_foldl_gcd v _ 0 d (dvd_zero d) h

theorem rowGcd_nonneg {n : ℕ} (v : Vec n) : 0 ≤ rowGcd v := foldl_gcd_nonneg v _ 0 le_rfl

theorem reduceRow_mul {n : ℕ} (v : Vec n) (h : rowGcd v ≠ 0) (j : Fin n) :
    rowGcd v * reduceRow v j = v j := by
  unfold reduceRow
  split
  · exact Int.mul_ediv_cancel' (rowGcd_dvd v j)
  · rename_i hn
    have : rowGcd v = 1 := by
      by_contra h1
      exact hn ⟨h, h1⟩
    rw [this, one_mul]

theorem reduceRow_primitive {n : ℕ} (v : Vec n) (h : rowGcd v ≠ 0) (d : ℤ)
    (hd : ∀ j, d ∣ reduceRow v j) : IsUnit d := by
  have : rowGcd v * d ∣ rowGcd v := by
    apply dvd_rowGcd
    intro j
    rw [← reduceRow_mul v h j]
    exact mul_dvd_mul_left _ (hd j)
  obtain ⟨c, hc⟩ := this
  have h1 : d * c = 1 := by
    have : rowGcd v * (d * c) = rowGcd v * 1 := by rw [← mul_assoc, ← hc, mul_one]
    exact mul_left_cancel₀ h this
  exact IsUnit.of_mul_eq_one _ h1

theorem signedInverse_dot {n : ℕ} (A : Mat n) (i j : Fin n) :
    ∑ k, A i k * signedInverse A j k = if i = j then -|A.det| else 0 := by
  have h := congrFun (congrFun (mul_adjugate A) i) j
  rw [mul_apply, Matrix.smul_apply, one_apply, smul_eq_mul] at h
  by_cases hd : A.det < 0
  · have : ∀ k, signedInverse A j k = A.adjugate k j := by
      intro k; simp [signedInverse, if_pos hd]
    simp only [this, h, abs_of_neg hd]
    split <;> simp
  · have : ∀ k, signedInverse A j k = -A.adjugate k j := by
      intro k; simp [signedInverse, if_neg hd]
    simp only [this, mul_neg, Finset.sum_neg_distrib, h, abs_of_nonneg (not_lt.mp hd)]
    split <;> simp

theorem signedInverse_gcd_ne {n : ℕ} (A : Mat n) (h : A.det ≠ 0) (i : Fin n) :
    rowGcd (signedInverse A i) ≠ 0 := by
  intro h0
  have h1 := signedInverse_dot A i i
  have h2 : ∀ k, signedInverse A i k = 0 := fun k => by
    have := rowGcd_dvd (signedInverse A i) k
    rw [h0] at this
    exact zero_dvd_iff.mp this
  simp only [h2, mul_zero, Finset.sum_const_zero, if_true] at h1
  exact h (abs_eq_zero.mp (by linarith))

theorem signedInverse_gcd_dvd {n : ℕ} (A : Mat n) (i : Fin n) :
    rowGcd (signedInverse A i) ∣ |A.det| := by
  have h1 := signedInverse_dot A i i
  rw [if_pos rfl] at h1
  have : rowGcd (signedInverse A i) ∣ -|A.det| := by
    rw [← h1]
    exact Finset.dvd_sum fun k _ => (rowGcd_dvd _ k).mul_left _
  exact (dvd_neg.mp this)

theorem foldl_div {n : ℕ} (g : Fin n → ℤ) (hg : ∀ i, g i ≠ 0) (l : List (Fin n)) (e : ℤ) :
    l.foldl (fun d i => if g i ≠ 0 ∧ g i ≠ 1 then d / g i else d) ((l.map g).prod * e) = e := by
  induction l with
  | nil => simp
  | cons a l ih =>
    simp only [List.foldl_cons, List.map_cons, List.prod_cons]
    have : (if g a ≠ 0 ∧ g a ≠ 1 then g a * (l.map g).prod * e / g a
        else g a * (l.map g).prod * e) = (l.map g).prod * e := by
      split
      · rw [mul_assoc, Int.mul_ediv_cancel_left _ (hg a)]
      · rename_i h
        have : g a = 1 := by
          by_contra h1
          exact h ⟨hg a, h1⟩
        rw [this, one_mul]
    rw [this, ih]

/-- The result of `computeDetAndFacets` in closed form. -/
theorem computeDetAndFacets_some {n : ℕ} (C : Cone n) (hf : C.facets = none)
    (hd : C.rays.det ≠ 0) :
    ∃ F d, computeDetAndFacets C = some { C with
        determinant := C.rays.det, facets := some F, facetDivisors := d, dualDeterminant := F.det } ∧
      (∀ i, 0 < d i) ∧
      (∀ i j, ∑ k, C.rays i k * F j k = if i = j then -d j else 0) ∧
      (∀ j e, (∀ k, e ∣ F j k) → IsUnit e) ∧
      (∀ j, d j ∣ C.rays.det) := by
  have hg := signedInverse_gcd_ne C.rays hd
  refine ⟨fun i => reduceRow (signedInverse C.rays i),
    fun i => |C.rays.det| / rowGcd (signedInverse C.rays i), ?_, ?_, ?_, ?_, ?_⟩
  · unfold computeDetAndFacets
    have h1 : ¬ (C.facets.isSome = true) := by simp [hf]
    have h2 : ∀ i, |C.rays.det| % rowGcd (signedInverse C.rays i) = 0 :=
      fun i => Int.emod_eq_zero_of_dvd (signedInverse_gcd_dvd C.rays i)
    rw [if_neg h1, if_neg hd]
    simp only [if_pos h2]
    congr 2
    have hdet : (signedInverse C.rays).det =
        ((List.finRange n).map fun i => rowGcd (signedInverse C.rays i)).prod *
          (Matrix.of fun i => reduceRow (signedInverse C.rays i)).det := by
      rw [← List.ofFn_eq_map, List.prod_ofFn, ← Matrix.det_mul_column]
      congr 1
      ext i j
      simp only [Matrix.of_apply]
      exact (reduceRow_mul _ (hg i) j).symm
    rw [hdet]
    exact foldl_div _ hg _ _
  · intro i
    obtain ⟨c, hc⟩ := signedInverse_gcd_dvd C.rays i
    have hgp : 0 < rowGcd (signedInverse C.rays i) :=
      lt_of_le_of_ne (rowGcd_nonneg _) (Ne.symm (hg i))
    show 0 < |C.rays.det| / _
    rw [hc, Int.mul_ediv_cancel_left _ (hg i)]
    have : 0 < rowGcd (signedInverse C.rays i) * c := by rw [← hc]; exact abs_pos.mpr hd
    exact pos_of_mul_pos_right this hgp.le
  · intro i j
    have h := signedInverse_dot C.rays i j
    obtain ⟨c, hc⟩ := signedInverse_gcd_dvd C.rays j
    have h2 : rowGcd (signedInverse C.rays j) *
        (∑ k, C.rays i k * reduceRow (signedInverse C.rays j) k) =
        if i = j then -|C.rays.det| else 0 := by
      rw [← h, Finset.mul_sum]
      refine Finset.sum_congr rfl fun k _ => ?_
      rw [← reduceRow_mul _ (hg j) k]
      ring
    show _ = if i = j then -(|C.rays.det| / _) else 0
    rw [hc, Int.mul_ediv_cancel_left _ (hg j)]
    split
    · rename_i hij
      rw [if_pos hij, hc] at h2
      apply mul_left_cancel₀ (hg j)
      rw [h2]; ring
    · rename_i hij
      rw [if_neg hij] at h2
      exact (mul_eq_zero.mp h2).resolve_left (hg j)
  · intro j e he
    exact reduceRow_primitive _ (hg j) e he
  · intro j
    refine (dvd_abs _ _).mp ?_
    exact Int.ediv_dvd_of_dvd (signedInverse_gcd_dvd C.rays j)

/-! ## Coordinates with respect to the rays -/

theorem exists_coords {n : ℕ} (A : Mat n) (h : A.det ≠ 0) (x : Fin n → ℝ) :
    ∃ a, x = comb A a := by
  let R : Matrix (Fin n) (Fin n) ℝ := A.map (Int.castRingHom ℝ)
  have hR : IsUnit R.det := by
    have : R.det = (A.det : ℝ) := by
      show (A.map (Int.castRingHom ℝ)).det = _
      rw [← RingHom.mapMatrix_apply, ← RingHom.map_det]
      rfl
    rw [this]
    exact isUnit_iff_ne_zero.mpr (by exact_mod_cast h)
  refine ⟨x ᵥ* R⁻¹, ?_⟩
  have : (x ᵥ* R⁻¹) ᵥ* R = x := by
    rw [vecMul_vecMul, nonsing_inv_mul _ hR, vecMul_one]
  conv_lhs => rw [← this]
  rfl

theorem coords_unique {n : ℕ} (A : Mat n) (h : A.det ≠ 0) (a b : Fin n → ℝ)
    (hab : comb A a = comb A b) : a = b := by
  let R : Matrix (Fin n) (Fin n) ℝ := A.map (Int.castRingHom ℝ)
  have hR : IsUnit R.det := by
    have : R.det = (A.det : ℝ) := by
      show (A.map (Int.castRingHom ℝ)).det = _
      rw [← RingHom.mapMatrix_apply, ← RingHom.map_det]
      rfl
    rw [this]
    exact isUnit_iff_ne_zero.mpr (by exact_mod_cast h)
  have h2 : a ᵥ* R = b ᵥ* R := hab
  have := congrArg (fun v => v ᵥ* R⁻¹) h2
  simpa [vecMul_vecMul, mul_nonsing_inv _ hR] using this

theorem dot_comb {n : ℕ} (A : Mat n) (f : Vec n) (a : Fin n → ℝ) :
    dot f (comb A a) = ∑ i, a i * ((∑ k, A i k * f k : ℤ) : ℝ) := by
  unfold dot comb
  simp only [Finset.mul_sum, Int.cast_sum, Int.cast_mul]
  rw [Finset.sum_comm]
  refine Finset.sum_congr rfl fun i _ => Finset.sum_congr rfl fun k _ => by ring

theorem dot_comb_dual {n : ℕ} (A F : Mat n) (d : Vec n)
    (h : ∀ i j, ∑ k, A i k * F j k = if i = j then -d j else 0) (a : Fin n → ℝ) (j : Fin n) :
    dot (F j) (comb A a) = -(d j : ℝ) * a j := by
  rw [dot_comb]
  simp only [h]
  rw [Finset.sum_eq_single j]
  · simp; ring
  · intro i _ hij; simp [hij]
  · simp

theorem mem_cone_iff {n : ℕ} (A F : Mat n) (d : Vec n) (hA : A.det ≠ 0) (hd : ∀ i, 0 < d i)
    (h : ∀ i j, ∑ k, A i k * F j k = if i = j then -d j else 0) (x : Fin n → ℝ) :
    x ∈ cone A ↔ ∀ j, dot (F j) x ≤ 0 := by
  obtain ⟨a, rfl⟩ := exists_coords A hA x
  simp only [dot_comb_dual A F d h]
  have hd' : ∀ j, (0 : ℝ) < d j := fun j => by exact_mod_cast hd j
  constructor
  · rintro ⟨b, hb, hab⟩ j
    rw [coords_unique A hA a b hab]
    have := mul_nonneg (hd' j).le (hb j)
    linarith
  · intro hj
    refine ⟨a, fun j => ?_, rfl⟩
    have h1 := hj j
    by_contra hneg
    have := mul_pos_of_neg_of_neg (show -(d j : ℝ) < 0 by linarith [hd' j]) (not_le.mp hneg)
    linarith

theorem onFacetPlane_iff {n : ℕ} (A F : Mat n) (d : Vec n) (hA : A.det ≠ 0) (hd : ∀ i, 0 < d i)
    (h : ∀ i j, ∑ k, A i k * F j k = if i = j then -d j else 0) (x : Fin n → ℝ) :
    OnFacetPlane A x ↔ ∃ j, dot (F j) x = 0 := by
  obtain ⟨a, rfl⟩ := exists_coords A hA x
  simp only [dot_comb_dual A F d h]
  have hd' : ∀ j, (d j : ℝ) ≠ 0 := fun j => by exact_mod_cast (hd j).ne'
  constructor
  · rintro ⟨b, ⟨i, hi⟩, hab⟩
    rw [coords_unique A hA a b hab]
    exact ⟨i, by rw [hi, mul_zero]⟩
  · rintro ⟨j, hj⟩
    refine ⟨a, ⟨j, ?_⟩, rfl⟩
    exact (mul_eq_zero.mp hj).resolve_left (neg_ne_zero.mpr (hd' j))

/-! ## C15 -/

/-- **C15.** For linearly independent rays (and no facets yet) the assertions of
`computeDetAndFacetsOfSimplicialCone` hold, the rays, coefficient and vertex are unchanged, and:
the recorded determinant is the determinant of the rays; facet normal `j` is orthogonal to every
ray except ray `j`, with which its product is minus the (positive) recorded divisor; every facet
normal is primitive; the recorded dual determinant is the determinant of the facet normals; and a
real point lies in the cone iff its products with all facet normals are `≤ 0`. -/
theorem facets_correct {n : ℕ} (C : Cone n) (hf : C.facets = none) (hd : C.rays.det ≠ 0) :
    ∃ D F, computeDetAndFacets C = some D ∧ D.facets = some F ∧
      D.rays = C.rays ∧ D.coefficient = C.coefficient ∧ D.vertex = C.vertex ∧
      D.determinant = C.rays.det ∧
      (∀ i j, i ≠ j → ∑ k, C.rays i k * F j k = 0) ∧
      (∀ j, ∑ k, C.rays j k * F j k = -D.facetDivisors j) ∧
      (∀ j, 0 < D.facetDivisors j) ∧
      (∀ j e, (∀ k, e ∣ F j k) → IsUnit e) ∧
      D.dualDeterminant = F.det ∧
      (∀ x, x ∈ cone C.rays ↔ ∀ j, dot (F j) x ≤ 0) := by
  obtain ⟨F, d, h, hpos, hdual, hprim, -⟩ := computeDetAndFacets_some C hf hd
  refine ⟨_, F, h, rfl, rfl, rfl, rfl, rfl, ?_, ?_, hpos, hprim, rfl,
    mem_cone_iff C.rays F d hd hpos hdual⟩
  · intro i j hij; rw [hdual, if_neg hij]
  · intro j; rw [hdual, if_pos rfl]

/-- Singular ray matrices are rejected (the assertion `det != 0`). -/
theorem facets_singular {n : ℕ} (C : Cone n) (hd : C.rays.det = 0) :
    computeDetAndFacets C = none := by
  unfold computeDetAndFacets
  simp [hd]

theorem det_transpose_mul_ne {n : ℕ} (A F : Mat n) (d : Vec n) (hd : ∀ i, 0 < d i)
    (h : ∀ i j, ∑ k, A i k * F j k = if i = j then -d j else 0) : F.det ≠ 0 := by
  have h1 : A * F.transpose = Matrix.diagonal fun i => -d i := by
    ext i j
    rw [mul_apply, Matrix.diagonal_apply]
    simp only [transpose_apply, h]
    by_cases hij : i = j
    · subst hij; simp
    · simp [hij]
  have h2 := congrArg Matrix.det h1
  rw [det_mul, det_transpose, det_diagonal] at h2
  intro h0
  rw [h0, mul_zero] at h2
  exact (Finset.prod_ne_zero_iff.mpr fun i _ => (neg_ne_zero.mpr (hd i).ne')) h2.symm

/-- **C15 (dual cone).** Dualizing the same cone yields the cone of the facet normals, whose
facets are the original rays, with the same duality relation and divisors, with determinants
matching, and the resulting set is the polar cone. Dualizing again gives back the original rays. -/
theorem dualize_correct {n : ℕ} (C : Cone n) (hf : C.facets = none) (hd : C.rays.det ≠ 0) :
    ∃ D E, dualizeCone C = some D ∧ D.facets = some C.rays ∧
      D.determinant = D.rays.det ∧ D.determinant ≠ 0 ∧ D.dualDeterminant = C.rays.det ∧
      (∀ i j, ∑ k, D.rays i k * C.rays j k = if i = j then -D.facetDivisors j else 0) ∧
      (∀ y, y ∈ cone D.rays ↔ ∀ x ∈ cone C.rays, ∑ k, x k * y k ≤ 0) ∧
      dualizeCone D = some E ∧ E.rays = C.rays ∧ E.facets = some D.rays ∧
      E.determinant = C.rays.det := by
  obtain ⟨F, d, h, hpos, hdual, hprim, -⟩ := computeDetAndFacets_some C hf hd
  have hF : F.det ≠ 0 := det_transpose_mul_ne C.rays F d hpos hdual
  have hdual' : ∀ i j, ∑ k, F i k * C.rays j k = if i = j then -d j else 0 := by
    intro i j
    have := hdual j i
    simp only [mul_comm] at this ⊢
    rw [this]
    by_cases hij : i = j
    · subst hij; simp
    · simp [hij, Ne.symm hij]
  have hz : dualizeCone C = some (swapDual { C with
        determinant := C.rays.det, facets := some F, facetDivisors := d,
        dualDeterminant := F.det } F) := by
    unfold dualizeCone
    rw [hf]
    simp only [h]
  refine ⟨_, _, hz, rfl, rfl, hF, rfl, hdual', ?_, rfl, rfl, rfl, rfl⟩
  intro y
  show y ∈ cone F ↔ _
  rw [mem_cone_iff F C.rays d hF hpos hdual']
  constructor
  · rintro hy x ⟨a, ha, rfl⟩
    have : ∑ k, comb C.rays a k * y k = ∑ i, a i * dot (C.rays i) y := by
      unfold comb dot
      simp only [Finset.sum_mul, Finset.mul_sum]
      rw [Finset.sum_comm]
      refine Finset.sum_congr rfl fun i _ => Finset.sum_congr rfl fun k _ => by ring
    rw [this]
    exact Finset.sum_nonpos fun i _ => mul_nonpos_of_nonneg_of_nonpos (ha i) (hy i)
  · intro hy j
    have hmem : comb C.rays (Pi.single j 1) ∈ cone C.rays := by
      refine ⟨_, fun i => ?_, rfl⟩
      by_cases hij : i = j
      · subst hij; simp
      · simp [hij]
    have := hy _ hmem
    have he : comb C.rays (Pi.single j 1) = fun k => (C.rays j k : ℝ) := by
      funext k
      unfold comb
      rw [Finset.sum_eq_single j]
      · simp
      · intro i _ hij; simp [hij]
      · simp
    rw [he] at this
    exact this

/-- Non-vacuity: the cone with rays (2,0) and (1,3) (determinant 6); its facet normals are
(-3,1) and (0,-1), the divisors 6 and 3, and the dual determinant is 3. -/
example : ((computeDetAndFacets (n := 2) ⟨1, 0, !![2, 0; 1, 3], 0, none, 0, 0⟩).map fun D =>
    (D.determinant, D.dualDeterminant, D.facets, D.facetDivisors)) =
    some (6, 3, some !![-3, 1; 0, -1], ![6, 3]) := by
  decide +kernel

end Verif.Barvinok
