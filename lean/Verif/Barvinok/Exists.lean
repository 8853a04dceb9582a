import Verif.Barvinok.Short
import Mathlib.LinearAlgebra.FreeModule.PID
import Mathlib.Algebra.Order.Round
import Mathlib.LinearAlgebra.Matrix.Basis
import Mathlib.LinearAlgebra.Matrix.SchurComplement

/-!
# The contracts of the lattice reduction can be met

Reduced bases exist for every lattice (by taking shortest vectors of the successive projections), so the hypotheses of the theorems
in `Short` are satisfiable in every dimension; and so is the contract that the first row is a shortest vector.
-/

namespace Verif.Barvinok

open Matrix

variable {n : ℕ}

/-! ### A primitive vector is the first row of a unimodular matrix -/

theorem extend_prim [NeZero n] (x : Vec n) (hx : Prim x) : ∃ V : Mat n, IsUnit V.det ∧ V 0 = x := by
  classical
  have hx0 : x ≠ 0 := by
    rintro rfl
    have := hx 0 (fun k => by simp)
    simp at this
  obtain ⟨n', bM, bN, f, a, hs⟩ := (Submodule.span ℤ {x}).smithNormalForm (Pi.basisFun ℤ (Fin n))
  have e := (bN.indexEquiv ((Module.Basis.singleton Unit ℤ).map (LinearEquiv.toSpanNonzeroSingleton ℤ _ x hx0)))
  have hn' : n' = 1 := by
    have := Fintype.card_congr e
    simpa using this
  subst hn'
  have hmem : x ∈ Submodule.span ℤ {x} := Submodule.mem_span_singleton_self x
  set c := bN.repr ⟨x, hmem⟩ 0 with hc
  have hxe : x = (c * a 0) • bM (f 0) := by
    have h1 := bN.sum_repr ⟨x, hmem⟩
    rw [Fin.sum_univ_one] at h1
    have h2 := congrArg (Subtype.val) h1
    simp only [Submodule.coe_smul] at h2
    rw [hs 0, smul_smul] at h2
    exact h2.symm
  have hu : IsUnit (c * a 0) := hx _ fun k => by
    have := congrFun hxe k
    rw [this]
    exact Dvd.intro _ rfl
  set M : Mat n := fun i => bM (Equiv.swap 0 (f 0) i) with hM
  have hdetM : IsUnit M.det := by
    have h1 := (Pi.basisFun ℤ (Fin n)).isUnit_det bM
    rw [Module.Basis.det_apply] at h1
    have h2 : M = ((Pi.basisFun ℤ (Fin n)).toMatrix bM).transpose.submatrix (Equiv.swap 0 (f 0)) id := by
      ext i j
      simp [hM, Module.Basis.toMatrix_apply]
    rw [h2, Matrix.det_permute, det_transpose]
    exact (Units.isUnit _).mul h1
  refine ⟨M.updateRow 0 ((c * a 0) • M 0), ?_, ?_⟩
  · rw [Matrix.det_updateRow_smul, Matrix.updateRow_eq_self]
    exact hu.mul hdetM
  · rw [Matrix.updateRow_self, hxe]
    simp only [hM, Equiv.swap_apply_left]

/-! ### Quadratic forms on integer vectors -/

/-- The bilinear form of `G` on integer vectors. -/
def bi (G : Matrix (Fin n) (Fin n) ℚ) (x y : Vec n) : ℚ := ∑ i, ∑ j, (x i : ℚ) * G i j * y j

theorem bi_smul (G : Matrix (Fin n) (Fin n) ℚ) (e : ℤ) (x : Vec n) : bi G (e • x) (e • x) = (e : ℚ) ^ 2 * bi G x x := by
  unfold bi
  rw [Finset.mul_sum]
  refine Finset.sum_congr rfl fun i _ => ?_
  rw [Finset.mul_sum]
  refine Finset.sum_congr rfl fun j _ => ?_
  simp only [Pi.smul_apply, smul_eq_mul]
  push_cast
  ring

theorem bi_vecMul (G : Matrix (Fin n) (Fin n) ℚ) (V : Mat n) (x y : Vec n) :
    bi (fun i j => bi G (V i) (V j)) x y = bi G (x ᵥ* V) (y ᵥ* V) := by
  unfold bi
  simp only [vecMul, dotProduct]
  push_cast
  simp only [Finset.mul_sum, Finset.sum_mul]
  have e1 : ∀ i j : Fin n, ∑ k, ∑ l, (x i : ℚ) * ((V i k : ℚ) * G k l * (V j l : ℚ)) * y j =
      ∑ k, ∑ l, (x i : ℚ) * (V i k : ℚ) * G k l * ((y j : ℚ) * V j l) := fun i j =>
    Finset.sum_congr rfl fun k _ => Finset.sum_congr rfl fun l _ => by ring
  simp only [e1]
  calc ∑ i, ∑ j, ∑ k, ∑ l, (x i : ℚ) * (V i k : ℚ) * G k l * ((y j : ℚ) * V j l)
      = ∑ k, ∑ l, ∑ i, ∑ j, (x i : ℚ) * (V i k : ℚ) * G k l * ((y j : ℚ) * V j l) := by
        rw [Finset.sum_congr rfl fun i _ => Finset.sum_comm]
        rw [Finset.sum_comm]
        refine Finset.sum_congr rfl fun k _ => ?_
        rw [Finset.sum_congr rfl fun i _ => Finset.sum_comm]
        rw [Finset.sum_comm]
    _ = ∑ k, ∑ l, ∑ j, ∑ i, (x i : ℚ) * (V i k : ℚ) * G k l * ((y j : ℚ) * V j l) := by
        refine Finset.sum_congr rfl fun k _ => Finset.sum_congr rfl fun l _ => Finset.sum_comm

/-- A positive form takes its least value on non-zero vectors, at a primitive vector. -/
theorem exists_min [NeZero n] (G : Matrix (Fin n) (Fin n) ℚ) (hpos : ∀ x : Vec n, x ≠ 0 → 0 < bi G x x) :
    ∃ x : Vec n, Prim x ∧ x ≠ 0 ∧ ∀ y : Vec n, y ≠ 0 → bi G x x ≤ bi G y y := by
  classical
  set D : ℕ := ∏ i, ∏ j, (G i j).den with hD
  have hD0 : 0 < D := Finset.prod_pos fun i _ => Finset.prod_pos fun j _ => (G i j).den_pos
  have hDG : ∀ i j, ∃ z : ℤ, (z : ℚ) = D * G i j := by
    intro i j
    have h1 : (G i j).den ∣ D := (Finset.dvd_prod_of_mem (fun j => (G i j).den) (Finset.mem_univ j)).trans
      (Finset.dvd_prod_of_mem (fun i => ∏ j, (G i j).den) (Finset.mem_univ i))
    obtain ⟨q, hq⟩ := h1
    refine ⟨q * (G i j).num, ?_⟩
    rw [hq]
    push_cast
    have := Rat.den_mul_eq_num (G i j)
    rw [← this]
    ring
  choose A hA using hDG
  have hint : ∀ x : Vec n, ((∑ i, ∑ j, x i * A i j * x j : ℤ) : ℚ) = D * bi G x x := by
    intro x
    unfold bi
    push_cast
    rw [Finset.mul_sum]
    refine Finset.sum_congr rfl fun i _ => ?_
    rw [Finset.mul_sum]
    refine Finset.sum_congr rfl fun j _ => ?_
    rw [hA]
    ring
  have hnat : ∀ x : Vec n, x ≠ 0 → ∃ m : ℕ, (m : ℚ) = D * bi G x x := by
    intro x hx
    have h1 := hint x
    have h2 : (0 : ℚ) < D * bi G x x := mul_pos (by exact_mod_cast hD0) (hpos x hx)
    rw [← h1] at h2
    have h3 : 0 < (∑ i, ∑ j, x i * A i j * x j : ℤ) := by exact_mod_cast h2
    refine ⟨(∑ i, ∑ j, x i * A i j * x j : ℤ).toNat, ?_⟩
    rw [← h1]
    have := Int.toNat_of_nonneg h3.le
    exact_mod_cast this
  have hex : ∃ m : ℕ, ∃ x : Vec n, x ≠ 0 ∧ (m : ℚ) = D * bi G x x := by
    have h1 : (Pi.single 0 1 : Vec n) ≠ 0 := by
      intro h
      have := congrFun h 0
      simp at this
    obtain ⟨m, hm⟩ := hnat _ h1
    exact ⟨m, _, h1, hm⟩
  obtain ⟨x, hx, hm⟩ := Nat.find_spec hex
  have hmin : ∀ y : Vec n, y ≠ 0 → bi G x x ≤ bi G y y := by
    intro y hy
    obtain ⟨m, hm'⟩ := hnat y hy
    have h1 : Nat.find hex ≤ m := Nat.find_le ⟨y, hy, hm'⟩
    have h2 : ((Nat.find hex : ℕ) : ℚ) ≤ m := by exact_mod_cast h1
    rw [hm, hm'] at h2
    exact le_of_mul_le_mul_left h2 (by exact_mod_cast hD0)
  refine ⟨x, fun e he => ?_, hx, hmin⟩
  choose y hy using he
  have hxy : x = e • y := by funext k; rw [hy k]; rfl
  have hy0 : y ≠ 0 := by
    rintro rfl
    exact hx (by rw [hxy, smul_zero])
  have h1 := hmin y hy0
  have h2 := hpos y hy0
  rw [hxy, bi_smul] at h1
  have h3 : (e : ℚ) ^ 2 ≤ 1 := by
    by_contra hc
    push Not at hc
    nlinarith
  have h4 : e ^ 2 ≤ 1 := by exact_mod_cast h3
  have he0 : e ≠ 0 := by
    rintro rfl
    exact hx (by rw [hxy, zero_smul])
  rw [Int.isUnit_iff]
  have h5 : |e| ≤ 1 := (sq_le_one_iff_abs_le_one e).1 h4
  rw [abs_le] at h5
  omega

/-- Completing the square. -/
theorem bi_cons (G : Matrix (Fin (n + 1)) (Fin (n + 1)) ℚ) (hs : ∀ i j, G i j = G j i) (hb : G 0 0 ≠ 0) (c d : ℤ) (u v : Vec n) :
    bi G (Fin.cons c u) (Fin.cons d v) =
      G 0 0 * (c + (∑ k, G 0 k.succ * u k) / G 0 0) * (d + (∑ k, G 0 k.succ * v k) / G 0 0) +
      bi (fun i j : Fin n => G i.succ j.succ - G 0 i.succ * G 0 j.succ / G 0 0) u v := by
  unfold bi
  simp only [Fin.sum_univ_succ, Fin.cons_zero, Fin.cons_succ]
  have e1 : ∑ j : Fin n, (c : ℚ) * G 0 j.succ * v j = c * ∑ k, G 0 k.succ * v k := by
    rw [Finset.mul_sum]; exact Finset.sum_congr rfl fun k _ => by ring
  have e2 : ∑ i : Fin n, ((u i : ℚ) * G i.succ 0 * d + ∑ j : Fin n, (u i : ℚ) * G i.succ j.succ * v j) =
      d * (∑ k, G 0 k.succ * u k) + ∑ i : Fin n, ∑ j : Fin n, (u i : ℚ) * G i.succ j.succ * v j := by
    rw [Finset.sum_add_distrib, Finset.mul_sum]
    congr 1
    exact Finset.sum_congr rfl fun k _ => by rw [hs]; ring
  have e3 : ∑ i : Fin n, ∑ j : Fin n, (u i : ℚ) * (G i.succ j.succ - G 0 i.succ * G 0 j.succ / G 0 0) * v j =
      ∑ i : Fin n, ∑ j : Fin n, (u i : ℚ) * G i.succ j.succ * v j - (∑ k, G 0 k.succ * u k) * (∑ k, G 0 k.succ * v k) / G 0 0 := by
    rw [Finset.sum_mul_sum, Finset.sum_div, ← Finset.sum_sub_distrib]
    refine Finset.sum_congr rfl fun i _ => ?_
    rw [Finset.sum_div, ← Finset.sum_sub_distrib]
    exact Finset.sum_congr rfl fun j _ => by ring
  rw [e1, e2, e3]
  field_simp
  ring

/-- Every positive form has a reduced basis. -/
theorem exists_reduced_form : ∀ (n : ℕ) (G : Matrix (Fin n) (Fin n) ℚ), (∀ i j, G i j = G j i) →
    (∀ x : Vec n, x ≠ 0 → 0 < bi G x x) → ∃ U : Mat n, IsUnit U.det ∧
    ∃ (μ : Matrix (Fin n) (Fin n) ℚ) (B : Fin n → ℚ),
      (∀ i, μ i i = 1) ∧ (∀ i j, i < j → μ i j = 0) ∧ (∀ i j, j < i → |μ i j| ≤ 1 / 2) ∧ (∀ i, 0 < B i) ∧
      (∀ i j, bi G (U i) (U j) = ∑ k, μ i k * B k * μ j k) ∧
      ∀ i j : Fin n, j.val = i.val + 1 → (1 - μ j i ^ 2) * B i ≤ B j := by
  intro n
  induction n with
  | zero =>
    intro G _ _
    exact ⟨1, by simp, 1, fun _ => 1, fun i => i.elim0, fun i => i.elim0, fun i => i.elim0, fun i => i.elim0, fun i => i.elim0,
      fun i => i.elim0⟩
  | succ n ih =>
    intro G hs hpos
    obtain ⟨x, hxp, hx0, hmin⟩ := exists_min G hpos
    obtain ⟨V, hV, hV0⟩ := extend_prim x hxp
    set G' : Matrix (Fin (n + 1)) (Fin (n + 1)) ℚ := fun i j => bi G (V i) (V j) with hG'
    have hs' : ∀ i j, G' i j = G' j i := by
      intro i j
      show bi G (V i) (V j) = bi G (V j) (V i)
      unfold bi
      rw [Finset.sum_comm]
      exact Finset.sum_congr rfl fun k _ => Finset.sum_congr rfl fun l _ => by rw [hs l k]; ring
    have hVne : ∀ y : Vec (n + 1), y ≠ 0 → y ᵥ* V ≠ 0 := fun y hy h => hy (Matrix.eq_zero_of_vecMul_eq_zero hV.ne_zero h)
    have hmin' : ∀ y : Vec (n + 1), y ≠ 0 → G' 0 0 ≤ bi G' y y := by
      intro y hy
      rw [hG', bi_vecMul]
      show bi G (V 0) (V 0) ≤ _
      rw [hV0]
      exact hmin _ (hVne y hy)
    have hb : 0 < G' 0 0 := by
      show 0 < bi G (V 0) (V 0)
      rw [hV0]
      exact hpos x hx0
    set S : Matrix (Fin n) (Fin n) ℚ := fun i j => G' i.succ j.succ - G' 0 i.succ * G' 0 j.succ / G' 0 0 with hS
    have hSs : ∀ i j, S i j = S j i := by
      intro i j
      simp only [hS]
      rw [hs' i.succ j.succ]
      ring
    have hSp : ∀ u : Vec n, u ≠ 0 → 0 < bi S u u := by
      intro u hu
      set t : ℚ := -((∑ k, G' 0 k.succ * u k) / G' 0 0) with ht
      have h1 := bi_cons G' hs' hb.ne' t.num t.num ((t.den : ℤ) • u) ((t.den : ℤ) • u)
      have hsum : ∑ k, G' 0 k.succ * ((((t.den : ℤ) • u) k : ℤ) : ℚ) = t.den * ∑ k, G' 0 k.succ * u k := by
        rw [Finset.mul_sum]
        refine Finset.sum_congr rfl fun k _ => ?_
        simp only [Pi.smul_apply, smul_eq_mul]
        push_cast
        ring
      have hz : (t.num : ℚ) + (∑ k, G' 0 k.succ * ((((t.den : ℤ) • u) k : ℤ) : ℚ)) / G' 0 0 = 0 := by
        rw [hsum, mul_div_assoc]
        have h2 : (∑ k, G' 0 k.succ * u k) / G' 0 0 = -t := by rw [ht]; ring
        rw [h2, ← Rat.den_mul_eq_num t]
        ring
      rw [hz, mul_zero, zero_add, ← hS, bi_smul] at h1
      have hne : (Fin.cons t.num ((t.den : ℤ) • u) : Vec (n + 1)) ≠ 0 := by
        intro h0
        apply hu
        funext k
        have := congrFun h0 k.succ
        simp only [Fin.cons_succ, Pi.smul_apply, smul_eq_mul, Pi.zero_apply, mul_eq_zero] at this
        rcases this with h | h
        · exact absurd h (by exact_mod_cast t.den_nz)
        · exact h
      have hp : 0 < bi G' (Fin.cons t.num ((t.den : ℤ) • u)) (Fin.cons t.num ((t.den : ℤ) • u)) := lt_of_lt_of_le hb (hmin' _ hne)
      rw [h1] at hp
      by_contra hc
      push Not at hc
      have := mul_nonpos_of_nonneg_of_nonpos (sq_nonneg (((t.den : ℤ) : ℚ))) hc
      linarith
    obtain ⟨U', hU', μ', B', g1, g2, g3, g4, g5, g6⟩ := ih S hSs hSp
    set t : Fin n → ℚ := fun i => (∑ k, G' 0 k.succ * U' i k) / G' 0 0 with ht
    set c : Fin n → ℤ := fun i => -round (t i) with hc
    set U'' : Mat (n + 1) := Fin.cons (Fin.cons 1 0) fun i => Fin.cons (c i) (U' i) with hU''
    have hdet : U''.det = U'.det := by
      rw [Matrix.det_succ_row_zero, Fin.sum_univ_succ]
      have : ∀ j : Fin n, U'' 0 j.succ = 0 := fun j => rfl
      simp only [this, mul_zero, zero_mul, Finset.sum_const_zero, add_zero]
      have h0 : U'' 0 0 = 1 := rfl
      rw [h0]
      simp only [Fin.val_zero, pow_zero, one_mul]
      congr 1
    set μ : Matrix (Fin (n + 1)) (Fin (n + 1)) ℚ := Fin.cons (Fin.cons 1 0) fun i => Fin.cons (t i + c i) (μ' i) with hμ
    set B : Fin (n + 1) → ℚ := Fin.cons (G' 0 0) B' with hB
    have m00 : μ 0 0 = 1 := rfl
    have m0s : ∀ j : Fin n, μ 0 j.succ = 0 := fun j => rfl
    have ms0 : ∀ i : Fin n, μ i.succ 0 = t i + c i := fun i => rfl
    have mss : ∀ i j : Fin n, μ i.succ j.succ = μ' i j := fun i j => rfl
    have B0 : B 0 = G' 0 0 := rfl
    have Bs : ∀ j : Fin n, B j.succ = B' j := fun j => rfl
    have gram : ∀ i j, bi G' (U'' i) (U'' j) = ∑ k, μ i k * B k * μ j k := by
      have u0 : U'' 0 = Fin.cons 1 0 := rfl
      have us : ∀ i : Fin n, U'' i.succ = Fin.cons (c i) (U' i) := fun i => rfl
      have z : ∑ k : Fin n, G' 0 k.succ * (((0 : Vec n) k : ℤ) : ℚ) = 0 := by simp
      have z1 : ∀ v : Vec n, bi S 0 v = 0 := by intro v; simp [bi]
      have z2 : ∀ v : Vec n, bi S v 0 = 0 := by intro v; simp [bi]
      intro i j
      rw [Fin.sum_univ_succ]
      refine Fin.cases ?_ (fun i => ?_) i <;> refine Fin.cases ?_ (fun j => ?_) j
      · rw [u0, bi_cons G' hs' hb.ne', z]
        simp only [m00, m0s, B0, zero_mul, Finset.sum_const_zero]
        rw [← hS, z1]
        push_cast
        ring
      · rw [u0, us, bi_cons G' hs' hb.ne', z]
        simp only [m00, m0s, B0, zero_mul, Finset.sum_const_zero, ms0]
        rw [← hS, z1]
        push_cast
        simp only [ht]
        ring
      · rw [u0, us, bi_cons G' hs' hb.ne', z]
        simp only [m00, m0s, B0, mul_zero, Finset.sum_const_zero, ms0]
        rw [← hS, z2]
        push_cast
        simp only [ht]
        ring
      · rw [us, us, bi_cons G' hs' hb.ne']
        simp only [B0, ms0, mss, Bs]
        rw [← hS, g5]
        simp only [ht]
        ring
    have hround : ∀ i, |t i + c i| ≤ 1 / 2 := by
      intro i
      have := abs_sub_round (t i)
      simp only [hc]
      push_cast
      rw [← sub_eq_add_neg]
      exact this
    refine ⟨U'' * V, ?_, μ, B, ?_, ?_, ?_, ?_, ?_, ?_⟩
    · rw [det_mul, hdet]; exact hU'.mul hV
    · intro i
      refine Fin.cases m00 (fun i => ?_) i
      rw [mss]; exact g1 i
    · intro i j
      refine Fin.cases ?_ (fun i => ?_) i <;> refine Fin.cases ?_ (fun j => ?_) j
      · intro h; exact absurd h (lt_irrefl _)
      · intro _; exact m0s j
      · intro h; exact absurd h (Fin.not_lt_zero _)
      · intro h; rw [mss]; exact g2 i j (Fin.succ_lt_succ_iff.1 h)
    · intro i j
      refine Fin.cases ?_ (fun i => ?_) i <;> refine Fin.cases ?_ (fun j => ?_) j
      · intro h; exact absurd h (lt_irrefl _)
      · intro h; exact absurd h (Fin.not_lt_zero _)
      · intro _; rw [ms0]; exact hround i
      · intro h; rw [mss]; exact g3 i j (Fin.succ_lt_succ_iff.1 h)
    · intro i
      refine Fin.cases ?_ (fun i => ?_) i
      · rw [B0]; exact hb
      · rw [Bs]; exact g4 i
    · intro i j
      rw [← gram i j, hG', bi_vecMul]
      rfl
    · intro i j
      refine Fin.cases ?_ (fun i => ?_) i <;> refine Fin.cases ?_ (fun j => ?_) j
      · intro h; simp at h
      · intro h
        have hj : j.val = 0 := by simpa using h
        have hne : U'' j.succ ≠ 0 := by
          intro h0
          have hz : U''.det = 0 := Matrix.det_eq_zero_of_row_eq_zero j.succ fun k => congrFun h0 k
          rw [hdet] at hz
          exact hU'.ne_zero hz
        have h1 := hmin' _ hne
        rw [gram, Fin.sum_univ_succ] at h1
        have h2 : ∑ k : Fin n, μ j.succ k.succ * B k.succ * μ j.succ k.succ = B j.succ := by
          rw [Finset.sum_eq_single j]
          · rw [mss, g1 j]; ring
          · intro k _ hk
            rw [mss, g2 j k (by
              rw [Fin.lt_def]
              have : k.val ≠ j.val := fun h => hk (Fin.ext h)
              omega)]
            ring
          · simp
        rw [h2] at h1
        rw [B0] at h1 ⊢
        linarith [sq (μ j.succ 0), mul_comm (μ j.succ 0 ^ 2) (G' 0 0)]
      · intro h; simp at h
      · intro h
        rw [mss, Bs, Bs]
        exact g6 i j (by simpa using h)

/-! ### Implementations of the contracts -/

theorem exists_kernel (M : Fin (n + 1) → Vec n) : ∃ k : Fin (n + 1) → ℤ, k ≠ 0 ∧ ∀ j, ∑ i, k i * M i j = 0 := by
  set A : Mat (n + 1) := fun i => Fin.cons 0 (M i) with hA
  have hdet : A.det = 0 := Matrix.det_eq_zero_of_column_eq_zero 0 fun i => rfl
  obtain ⟨k, hk, h⟩ := Matrix.exists_vecMul_eq_zero_iff.2 hdet
  refine ⟨k, hk, fun j => ?_⟩
  have := congrFun h j.succ
  exact this

/-- A library whose lattice reduction multiplies by a prescribed transformation, everything else by choice. -/
noncomputable def ntlWith (U : Mat n → Mat n) : Ntl n where
  lll L := (U L * L, U L)
  kernel M := (exists_kernel M).choose
  latticeSolve A b := by
    classical exact if h : ∃ x, Matrix.vecMul x A = b then h.choose else 0

theorem ntlWith_ok (U : Mat n → Mat n) (hU : ∀ L, IsUnit (U L).det) : (ntlWith U).Ok where
  lll_mul _ := rfl
  lll_unimodular L := hU L
  kernel_ne M := (exists_kernel M).choose_spec.1
  kernel_mul M := (exists_kernel M).choose_spec.2
  solve A b h := by
    have : (ntlWith U).latticeSolve A b = h.choose := by
      unfold ntlWith
      simp only [dif_pos h]
    rw [this]
    exact h.choose_spec

theorem exists_reduced (L : Mat n) (hL : L.det ≠ 0) : ∃ U : Mat n, IsUnit U.det ∧ Reduced (U * L) := by
  set G : Matrix (Fin n) (Fin n) ℚ := fun i j => ∑ k, (L i k : ℚ) * L j k with hG
  have hbi : ∀ x y : Vec n, bi G x y = ∑ k, (((x ᵥ* L) k : ℤ) : ℚ) * (((y ᵥ* L) k : ℤ) : ℚ) := by
    intro x y
    unfold bi
    simp only [hG, vecMul, dotProduct]
    push_cast
    simp only [Finset.mul_sum, Finset.sum_mul]
    rw [Finset.sum_congr rfl fun i _ => Finset.sum_comm]
    rw [Finset.sum_comm]
    refine Finset.sum_congr rfl fun k _ => ?_
    rw [Finset.sum_comm]
    exact Finset.sum_congr rfl fun i _ => Finset.sum_congr rfl fun j _ => by ring
  obtain ⟨U, hU, μ, B, h1, h2, h3, h4, h5, h6⟩ := exists_reduced_form n G (fun i j => Finset.sum_congr rfl fun k _ => mul_comm _ _) (by
    intro x hx
    rw [hbi]
    have hne : x ᵥ* L ≠ 0 := fun h => hx (Matrix.eq_zero_of_vecMul_eq_zero hL h)
    obtain ⟨k, hk⟩ := Function.ne_iff.1 hne
    refine Finset.sum_pos' (fun k _ => mul_self_nonneg _) ⟨k, Finset.mem_univ _, ?_⟩
    exact mul_self_pos.2 (by exact_mod_cast hk))
  exact ⟨U, hU, μ, B, h1, h2, h3, h4, fun i j => by rw [← h5, hbi]; rfl, h6⟩

/-- The documented contract of `LLL` can be met, in every dimension. -/
theorem reduces_satisfiable (n : ℕ) : ∃ N : Ntl n, N.Ok ∧ N.Reduces := by
  classical
  have h : ∀ L : Mat n, ∃ U : Mat n, IsUnit U.det ∧ (L.det ≠ 0 → Reduced (U * L)) := by
    intro L
    by_cases hL : L.det = 0
    · exact ⟨1, by simp, fun h => absurd hL h⟩
    · obtain ⟨U, h1, h2⟩ := exists_reduced L hL
      exact ⟨U, h1, fun _ => h2⟩
  choose U hU hR using h
  exact ⟨ntlWith U, ntlWith_ok U hU, fun L hL => hR L hL⟩

/-- A lattice has a basis that starts with a shortest vector. -/
theorem exists_shortest [NeZero n] (L : Mat n) (hL : L.det ≠ 0) :
    ∃ U : Mat n, IsUnit U.det ∧ ∀ x : Vec n, x ≠ 0 → norm ((U * L) 0) ≤ norm (x ᵥ* L) := by
  classical
  have hex : ∃ m : ℕ, ∃ x : Vec n, x ≠ 0 ∧ (m : ℤ) = norm (x ᵥ* L) :=
    ⟨_, Pi.single 0 1, by intro h; have := congrFun h 0; simp at this, Int.toNat_of_nonneg (norm_nonneg _)⟩
  obtain ⟨x, hx, hm⟩ := Nat.find_spec hex
  have hmin : ∀ y : Vec n, y ≠ 0 → norm (x ᵥ* L) ≤ norm (y ᵥ* L) := by
    intro y hy
    have h1 : Nat.find hex ≤ (norm (y ᵥ* L)).toNat := Nat.find_le ⟨y, hy, Int.toNat_of_nonneg (norm_nonneg _)⟩
    have := Int.toNat_of_nonneg (norm_nonneg (y ᵥ* L))
    omega
  have hprim : Prim x := by
    intro e he
    choose y hy using he
    have hxy : x = e • y := by funext k; rw [hy k]; rfl
    have hy0 : y ≠ 0 := by
      rintro rfl
      exact hx (by rw [hxy, smul_zero])
    have he0 : e ≠ 0 := by
      rintro rfl
      exact hx (by rw [hxy, zero_smul])
    by_contra hu
    rw [Int.isUnit_iff] at hu
    have he2 : 2 ≤ |e| := by
      rw [le_abs]
      omega
    have hyL : y ᵥ* L ≠ 0 := fun h => hy0 (Matrix.eq_zero_of_vecMul_eq_zero hL h)
    have h1 := norm_div_lt (x := x ᵥ* L) hyL e he2 (fun k => by rw [hxy, Matrix.smul_vecMul]; rfl)
    have h2 := hmin y hy0
    omega
  obtain ⟨V, hV, hV0⟩ := extend_prim x hprim
  refine ⟨V, hV, fun y hy => ?_⟩
  have : (V * L) 0 = x ᵥ* L := by rw [← hV0]; rfl
  rw [this]
  exact hmin y hy

/-- So can the contract that the first row is a shortest vector. -/
theorem shortestRow_satisfiable (n : ℕ) [NeZero n] : ∃ N : Ntl n, N.Ok ∧ N.ShortestRow := by
  classical
  have h : ∀ L : Mat n, ∃ U : Mat n, IsUnit U.det ∧ (L.det ≠ 0 → ∀ x : Vec n, x ≠ 0 → norm ((U * L) 0) ≤ norm (x ᵥ* L)) := by
    intro L
    by_cases hL : L.det = 0
    · exact ⟨1, by simp, fun h => absurd hL h⟩
    · obtain ⟨U, h1, h2⟩ := exists_shortest L hL
      exact ⟨U, h1, fun _ => h2⟩
  choose U hU hR using h
  exact ⟨ntlWith U, ntlWith_ok U hU, fun L hL => hR L hL⟩

end Verif.Barvinok
