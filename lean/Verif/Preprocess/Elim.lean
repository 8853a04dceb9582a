import Verif.Preprocess.Hermite
import Mathlib.Data.Set.Card
import Mathlib.LinearAlgebra.FreeModule.StrongRankCondition
import Mathlib.LinearAlgebra.Dimension.Constructions
import Mathlib.LinearAlgebra.LinearIndependent.Defs
import Mathlib.Tactic.FinCases

/-!
# Eliminating the equations keeps the lattice points
-/

namespace Verif.Preprocess

open Matrix

variable {n m : ℕ}

/-! ## Specification -/

/-- The left-hand side of a row in the `dil`-fold dilation. -/
def Row.eval (r : Row n) (dil : ℤ) (x : Fin n → ℤ) : ℤ := dil * r.b + ∑ k, r.a k * x k

/-- The integer points of the `dil`-fold dilation of the polyhedron given by equations and inequalities. -/
def solutions (eqs : Fin m → Row n) (ineqs : List (Row n)) (dil : ℤ) : Set (Fin n → ℤ) :=
  {x | (∀ j, (eqs j).eval dil x = 0) ∧ ∀ r ∈ ineqs, 0 ≤ r.eval dil x}

/-- The integer points of a polyhedron given by inequalities only. -/
def feasible {d : ℕ} (ineqs : List (Row d)) : Set (Fin d → ℤ) := {y | ∀ r ∈ ineqs, 0 ≤ r.eval 1 y}

/-- The affine map from the new to the old coordinates: `z ↦ dil p + Σ z_j B_j`. -/
def lift {d : ℕ} (dil : ℤ) (p : Fin n → ℤ) (basis : Fin d → Fin n → ℤ) (z : Fin d → ℤ) : Fin n → ℤ :=
  fun k => dil * p k + ∑ j, z j * basis j k

/-- The equations have an integer solution. -/
def IntSolvable (eqs : Fin m → Row n) : Prop := ∃ x : Fin n → ℤ, ∀ j, (eqs j).eval 1 x = 0

/-- The normal vectors of the equations are independent. -/
def Independent (eqs : Fin m → Row n) : Prop := LinearIndependent ℤ fun j => (eqs j).a

/-! ## The echelon form -/

/-- The transposed matrix of the equations as given to `ihermite`. -/
def matOf (eqs : Fin m → Row n) : Matrix (Fin n) (Fin m) ℤ := fun i j => -(eqs j).a i

theorem vecMul_product {S0 : Matrix (Fin n) (Fin m) ℤ} {U : Matrix (Fin n) (Fin n) ℤ} {S : Matrix (Fin n) (Fin m) ℤ} {σ : Equiv.Perm (Fin m)}
    (h : ∀ i j, S i j = ∑ k, U i k * S0 k (σ j)) (y : Fin n → ℤ) (j : Fin m) :
    ∑ k, (y ᵥ* U) k * S0 k (σ j) = ∑ i, y i * S i j := by
  simp only [h, vecMul, dotProduct, Finset.sum_mul, Finset.mul_sum]
  rw [Finset.sum_comm]
  exact Finset.sum_congr rfl fun i _ => Finset.sum_congr rfl fun k _ => by ring

theorem unimodular_surj {U : Matrix (Fin n) (Fin n) ℤ} (h : IsUnit U.det) (x : Fin n → ℤ) : ∃ y : Fin n → ℤ, y ᵥ* U = x :=
  ⟨x ᵥ* U⁻¹, by rw [vecMul_vecMul, nonsing_inv_mul U h, vecMul_one]⟩

theorem unimodular_inj {U : Matrix (Fin n) (Fin n) ℤ} (h : IsUnit U.det) {y z : Fin n → ℤ} (hyz : y ᵥ* U = z ᵥ* U) : y = z := by
  have := congrArg (fun v => v ᵥ* U⁻¹) hyz
  simpa [vecMul_vecMul, mul_nonsing_inv U h] using this

/-- Two solutions of the echelon system agree in the first `crk` coordinates. -/
theorem echelon_kernel {S0 : Matrix (Fin n) (Fin m) ℤ} {rhs0 : Fin m → ℤ} {s : HState n m} (h : HermiteSpec S0 rhs0 s) (y : Fin n → ℤ) :
    (∀ j, ∑ i, y i * s.S i j = 0) ↔ ∀ i : Fin n, i.val < s.crk → y i = 0 := by
  constructor
  · intro hy
    have key : ∀ k : ℕ, ∀ i : Fin n, i.val = k → i.val < s.crk → y i = 0 := by
      intro k
      induction k using Nat.strong_induction_on with
      | _ k ih =>
        intro i hik hi
        have hm := h.hm
        have h1 := hy ⟨i.val, by omega⟩
        rw [Finset.sum_eq_single i] at h1
        · have := h.diag i ⟨i.val, by omega⟩ rfl hi
          rcases mul_eq_zero.1 h1 with h2 | h2
          · exact h2
          · omega
        · intro i' _ hne
          rcases lt_or_gt_of_ne hne with hlt | hgt
          · rw [ih i'.val (by rw [← hik]; exact hlt) i' rfl (lt_trans hlt hi), zero_mul]
          · rw [h.below i' ⟨i.val, by omega⟩ hgt hi, mul_zero]
        · intro hn; exact absurd (Finset.mem_univ i) hn
    exact fun i hi => key i.val i rfl hi
  · intro hy j
    refine Finset.sum_eq_zero fun i _ => ?_
    by_cases hi : i.val < s.crk
    · rw [hy i hi, zero_mul]
    · rw [h.rest i j (not_lt.1 hi), mul_zero]

/-- Zero extension of coordinates with respect to the basis. -/
def extend (r : ℕ) (z : Fin (n - r) → ℤ) : Fin n → ℤ := fun i => if h : r ≤ i.val then z ⟨i.val - r, by have := i.2; omega⟩ else 0

theorem extend_sum {r : ℕ} (hr : r ≤ n) (z : Fin (n - r) → ℤ) (f : Fin n → ℤ) :
    ∑ i, extend r z i * f i = ∑ j : Fin (n - r), z j * f ⟨r + j.val, by omega⟩ := by
  symm
  apply Finset.sum_of_injOn (fun j : Fin (n - r) => (⟨r + j.val, by omega⟩ : Fin n))
  · intro a _ b _ hab
    simp only [Fin.mk.injEq] at hab
    exact Fin.ext (by omega)
  · intro a _; simp
  · intro i _ hi
    have : ¬ r ≤ i.val := by
      intro h
      apply hi
      refine ⟨⟨i.val - r, by have := i.2; omega⟩, by simp, ?_⟩
      exact Fin.ext (by show r + (i.val - r) = i.val; omega)
    simp [extend, this]
  · intro j _
    simp [extend]

theorem basis_sum (s : HState n m) (hr : s.crk ≤ n) (z : Fin (n - s.crk) → ℤ) (k : Fin n) :
    ∑ j, z j * latticeBasis s hr j k = (extend s.crk z ᵥ* s.U) k := by
  rw [vecMul, dotProduct, extend_sum hr z fun i => s.U i k]
  rfl

theorem extend_ge {r : ℕ} (y : Fin n → ℤ) (hy : ∀ i : Fin n, i.val < r → y i = 0) (hr : r ≤ n) :
    extend r (fun j : Fin (n - r) => y ⟨r + j.val, by omega⟩) = y := by
  funext i
  unfold extend
  split
  · rename_i h
    exact congrArg y (Fin.ext (by show r + (i.val - r) = i.val; omega))
  · rename_i h; rw [hy i (by omega)]

theorem extend_inj {r : ℕ} (hr : r ≤ n) {z w : Fin (n - r) → ℤ} (h : extend r z = extend r w) : z = w := by
  funext j
  have := congrFun h ⟨r + j.val, by omega⟩
  simpa [extend] using this

/-- The rows of `U` from the rank on are a basis of the lattice of integer solutions of the homogeneous equations (for every matrix, whatever its rank). -/
theorem latticeBasis_basis {S0 : Matrix (Fin n) (Fin m) ℤ} {rhs0 : Fin m → ℤ} {s : HState n m} (h : HermiteSpec S0 rhs0 s) (x : Fin n → ℤ) :
    (∀ j, ∑ k, x k * S0 k j = 0) ↔ ∃! z : Fin (n - s.crk) → ℤ, ∀ k, x k = ∑ j, z j * latticeBasis s h.hn j k := by
  obtain ⟨σ, hσ, _⟩ := h.product
  obtain ⟨y, rfl⟩ := unimodular_surj h.unimodular x
  have h1 : (∀ j, ∑ k, (y ᵥ* s.U) k * S0 k j = 0) ↔ ∀ i : Fin n, i.val < s.crk → y i = 0 := by
    rw [← echelon_kernel h]
    constructor
    · intro h2 j; rw [← vecMul_product hσ]; exact h2 (σ j)
    · intro h2 j
      have := h2 (σ.symm j)
      rw [← vecMul_product hσ, Equiv.apply_symm_apply] at this
      exact this
  rw [h1]
  constructor
  · intro h2
    refine ⟨fun j => y ⟨s.crk + j.val, by have := h.hn; omega⟩, ?_, ?_⟩
    · intro k
      rw [basis_sum, extend_ge y h2 h.hn]
    · intro w hw
      apply extend_inj h.hn
      rw [extend_ge y h2 h.hn]
      apply unimodular_inj h.unimodular
      funext k
      rw [hw k, basis_sum]
  · rintro ⟨z, hz, _⟩ i hi
    have : y = extend s.crk z := unimodular_inj h.unimodular (by funext k; rw [hz k, basis_sum])
    rw [this]
    simp [extend, not_le.2 hi]

/-! ## Forward substitution -/

theorem forward_solves (hmn : m ≤ n) (H : Matrix (Fin m) (Fin n) ℤ) (y : Fin m → ℤ)
    (hlow : ∀ i j : Fin m, i < j → H i (Fin.castLE hmn j) = 0) (hcol : ∀ j : Fin m, H j (Fin.castLE hmn j) = 0 → ∀ i, H i (Fin.castLE hmn j) = 0) :
    ∀ (l : List (Fin m)), l.Pairwise (· < ·) → ∀ (sol : Fin n → ℤ) (rhs : Fin m → ℤ),
      (∀ j ∈ l, rhs j = (l.map fun t => H j (Fin.castLE hmn t) * y t).sum) →
      (∀ t ∈ l, H t (Fin.castLE hmn t) ≠ 0 → forward hmn H l sol rhs (Fin.castLE hmn t) = y t) ∧
      ∀ i : Fin n, (∀ t ∈ l, H t (Fin.castLE hmn t) ≠ 0 → i ≠ Fin.castLE hmn t) → forward hmn H l sol rhs i = sol i := by
  intro l
  induction l with
  | nil => intro _ sol rhs _; simp [forward]
  | cons i l ih =>
    intro hp sol rhs hrhs
    rw [List.pairwise_cons] at hp
    have hzero : (l.map fun t => H i (Fin.castLE hmn t) * y t).sum = 0 := by
      apply List.sum_eq_zero
      intro v hv
      obtain ⟨t, ht, rfl⟩ := List.mem_map.1 hv
      rw [hlow i t (hp.1 t ht), zero_mul]
    have hi : rhs i = H i (Fin.castLE hmn i) * y i := by
      rw [hrhs i (by simp), List.map_cons, List.sum_cons, hzero, add_zero]
    rw [forward]
    by_cases h0 : H i (Fin.castLE hmn i) ≠ 0
    · rw [if_pos h0]
      have hq : Int.fdiv (rhs i) (H i (Fin.castLE hmn i)) = y i := by
        rw [hi]; exact Int.mul_fdiv_cancel_left _ h0
      simp only [hq]
      obtain ⟨h1, h2⟩ := ih hp.2 (Function.update sol (Fin.castLE hmn i) (y i))
        (fun j => if i < j then rhs j - y i * H j (Fin.castLE hmn i) else rhs j) (by
          intro j hj
          show (if i < j then rhs j - y i * H j (Fin.castLE hmn i) else rhs j) = _
          rw [if_pos (hp.1 j hj), hrhs j (by simp [hj]), List.map_cons, List.sum_cons]
          ring)
      constructor
      · intro t ht ht0
        rcases List.mem_cons.1 ht with rfl | ht
        · rw [h2, Function.update_self]
          intro u hu _ he
          exact absurd (Fin.castLE_injective hmn he) (hp.1 u hu).ne
        · exact h1 t ht ht0
      · intro k hk
        rw [h2 k fun t ht => hk t (by simp [ht]), Function.update_of_ne (hk i (by simp) h0)]
    · rw [if_neg h0]
      push Not at h0
      obtain ⟨h1, h2⟩ := ih hp.2 sol rhs (by
        intro j hj
        rw [hrhs j (by simp [hj]), List.map_cons, List.sum_cons, hcol i h0 j, zero_mul, zero_add])
      constructor
      · intro t ht ht0
        rcases List.mem_cons.1 ht with rfl | ht
        · exact absurd h0 ht0
        · exact h1 t ht ht0
      · intro k hk
        exact h2 k fun t ht => hk t (by simp [ht])

/-- The forward substitution changes only coordinates with a non-zero pivot. -/
theorem forward_other (hmn : m ≤ n) (H : Matrix (Fin m) (Fin n) ℤ) (l : List (Fin m)) : ∀ (sol : Fin n → ℤ) (rhs : Fin m → ℤ) (i : Fin n),
    (∀ t ∈ l, H t (Fin.castLE hmn t) ≠ 0 → i ≠ Fin.castLE hmn t) → forward hmn H l sol rhs i = sol i := by
  induction l with
  | nil => intro sol rhs i _; rfl
  | cons t l ih =>
    intro sol rhs i hi
    rw [forward]
    by_cases h0 : H t (Fin.castLE hmn t) ≠ 0
    · rw [if_pos h0]
      show forward hmn H l _ _ i = sol i
      rw [ih _ _ i fun u hu => hi u (by simp [hu]), Function.update_of_ne (hi t (by simp) h0)]
    · rw [if_neg h0]
      exact ih _ _ i fun u hu => hi u (by simp [hu])

/-! ## Solutions and the echelon form -/

theorem solves_iff (eqs : Fin m → Row n) (x : Fin n → ℤ) : (∀ j, (eqs j).eval 1 x = 0) ↔ ∀ j, ∑ k, x k * matOf eqs k j = (eqs j).b := by
  refine forall_congr' fun j => ?_
  have e : ∑ k, x k * matOf eqs k j = -∑ k, (eqs j).a k * x k := by
    rw [← Finset.sum_neg_distrib]
    exact Finset.sum_congr rfl fun k _ => by simp only [matOf]; ring
  rw [e, Row.eval]
  constructor <;> intro h <;> linarith

theorem solves_echelon {eqs : Fin m → Row n} {s : HState n m} (h : HermiteSpec (matOf eqs) (fun j => (eqs j).b) s) (y : Fin n → ℤ) :
    (∀ j, (eqs j).eval 1 (y ᵥ* s.U) = 0) ↔ ∀ j, ∑ i, y i * s.S i j = s.rhs j := by
  obtain ⟨σ, hσ, hr⟩ := h.product
  rw [solves_iff]
  constructor
  · intro h2 j
    rw [← vecMul_product hσ, hr]; exact h2 (σ j)
  · intro h2 j
    have := h2 (σ.symm j)
    rw [← vecMul_product hσ, hr, Equiv.apply_symm_apply] at this
    exact this

theorem sum_castLE (hmn : m ≤ n) (f : Fin n → ℤ) (hf : ∀ i : Fin n, m ≤ i.val → f i = 0) : ∑ i, f i = ∑ t : Fin m, f (Fin.castLE hmn t) := by
  symm
  apply Finset.sum_of_injOn (Fin.castLE hmn)
  · intro a _ b _ hab; exact Fin.castLE_injective hmn hab
  · intro a _; simp
  · intro i _ hi
    apply hf
    by_contra hlt
    exact hi ⟨⟨i.val, by omega⟩, by simp, Fin.ext rfl⟩
  · intro j _; rfl

section
variable (hmn : m ≤ n) {eqs : Fin m → Row n} {s : HState n m} (h : HermiteSpec (matOf eqs) (fun j => (eqs j).b) s)
include h

theorem lower (i j : Fin m) (hij : i < j) : s.S.transpose i (Fin.castLE hmn j) = 0 := by
  show s.S (Fin.castLE hmn j) i = 0
  by_cases hi : i.val < s.crk
  · exact h.below _ i hij hi
  · refine h.rest _ i ?_
    have : i.val < j.val := hij
    show s.crk ≤ j.val
    omega

theorem diag_ne (t : Fin m) : s.S.transpose t (Fin.castLE hmn t) ≠ 0 ↔ t.val < s.crk := by
  show s.S (Fin.castLE hmn t) t ≠ 0 ↔ _
  constructor
  · intro h0
    by_contra hc
    exact h0 (h.rest _ t (not_lt.1 hc))
  · intro ht
    exact (h.diag (Fin.castLE hmn t) t rfl ht).ne'

/-- When the equations have an integer solution, forward substitution finds its coordinates. -/
theorem forward_eq {y : Fin n → ℤ} (hy : ∀ j, ∑ i, y i * s.S i j = s.rhs j) (i : Fin n) :
    forward hmn s.S.transpose (List.finRange m) 0 s.rhs i = if i.val < s.crk then y i else 0 := by
  obtain ⟨h1, h2⟩ := forward_solves hmn s.S.transpose (fun t => y (Fin.castLE hmn t)) (lower hmn h) (by
      intro j h0 i
      have hj : ¬ j.val < s.crk := fun hj => (diag_ne hmn h j).2 hj h0
      exact h.rest _ i (not_lt.1 hj)) (List.finRange m) (List.pairwise_lt_finRange m) 0 s.rhs (by
      intro j _
      rw [← hy j, sum_castLE hmn _ fun i hi => by rw [h.rest i j (le_trans h.hm hi), mul_zero], ← List.ofFn_eq_map, List.sum_ofFn]
      exact Finset.sum_congr rfl fun t _ => mul_comm _ _)
  by_cases hi : i.val < s.crk
  · rw [if_pos hi]
    have him : i.val < m := lt_of_lt_of_le hi h.hm
    have e : i = Fin.castLE hmn ⟨i.val, him⟩ := Fin.ext rfl
    have := h1 ⟨i.val, him⟩ (List.mem_finRange _) ((diag_ne hmn h _).2 hi)
    rw [← e] at this
    exact this
  · rw [if_neg hi, h2 i]
    · rfl
    · intro t _ ht he
      have := (diag_ne hmn h t).1 ht
      rw [he] at hi
      exact hi this

theorem forward_zero (rhs : Fin m → ℤ) (i : Fin n) (hi : s.crk ≤ i.val) : forward hmn s.S.transpose (List.finRange m) 0 rhs i = 0 := by
  rw [forward_other]
  · rfl
  · intro t _ ht he
    have := (diag_ne hmn h t).1 ht
    rw [he] at hi
    exact absurd this (not_lt.2 hi)

/-- The particular solution of the code solves the equations whenever they have an integer solution. -/
theorem particular_solves (hs : IntSolvable eqs) (j : Fin m) :
    (eqs j).eval 1 (forward hmn s.S.transpose (List.finRange m) 0 s.rhs ᵥ* s.U) = 0 := by
  obtain ⟨x, hx⟩ := hs
  obtain ⟨y, rfl⟩ := unimodular_surj h.unimodular x
  have hy := (solves_echelon h y).1 hx
  refine (solves_echelon h _).2 ?_ j
  intro j
  rw [← hy j]
  refine Finset.sum_congr rfl fun i _ => ?_
  rw [forward_eq hmn h hy i]
  split
  · rfl
  · rename_i hi; rw [h.rest i j (not_lt.1 hi), mul_zero, mul_zero]

theorem det_ne_zero_iff : (Matrix.of fun i j : Fin m => s.S.transpose i (Fin.castLE hmn j)).det ≠ 0 ↔ s.crk = m := by
  constructor
  · intro hd
    by_contra hc
    have hlt : s.crk < m := lt_of_le_of_ne h.hm hc
    exact hd (det_eq_zero_of_column_eq_zero ⟨s.crk, hlt⟩ fun i => h.rest _ i le_rfl)
  · intro hc
    rw [det_of_isLowerTriangular]
    · exact Finset.prod_ne_zero_iff.2 fun t _ => (diag_ne hmn h t).2 (by rw [hc]; exact t.2)
    · intro i j hij
      exact lower hmn h i j hij

/-- Independent equations: full rank. -/
theorem independent_rank (hi : Independent eqs) : s.crk = m := by
  obtain ⟨σ, hσ, _⟩ := h.product
  have hli : LinearIndependent ℤ fun (j : Fin m) (i : Fin s.crk) => s.S (Fin.castLE h.hn i) j := by
    rw [Fintype.linearIndependent_iff]
    intro g hg
    have h1 : ∀ i, ∑ j, g j * s.S i j = 0 := by
      intro i
      by_cases hic : i.val < s.crk
      · have := congrFun hg ⟨i.val, hic⟩
        simp only [Finset.sum_apply, Pi.smul_apply, smul_eq_mul, Pi.zero_apply] at this
        exact this
      · exact Finset.sum_eq_zero fun j _ => by rw [h.rest i j (not_lt.1 hic), mul_zero]
    have h2 : s.U *ᵥ (fun k => ∑ j, g j * matOf eqs k (σ j)) = 0 := by
      funext i
      rw [mulVec, dotProduct, Pi.zero_apply, ← h1 i]
      simp only [hσ, Finset.mul_sum]
      rw [Finset.sum_comm]
      exact Finset.sum_congr rfl fun k _ => Finset.sum_congr rfl fun j _ => by ring
    have h3 : (fun k => ∑ j, g j * matOf eqs k (σ j)) = 0 := by
      have := congrArg (fun v => s.U⁻¹ *ᵥ v) h2
      simpa [mulVec_mulVec, nonsing_inv_mul s.U h.unimodular] using this
    have h4 := Fintype.linearIndependent_iff.1 hi (fun j => g (σ.symm j)) (by
      funext k
      have := congrFun h3 k
      simp only [Pi.zero_apply] at this
      simp only [Finset.sum_apply, Pi.smul_apply, smul_eq_mul, Pi.zero_apply]
      rw [← Equiv.sum_comp σ]
      simp only [Equiv.symm_apply_apply]
      have e : ∑ j, g j * (eqs (σ j)).a k = -∑ j, g j * matOf eqs k (σ j) := by
        rw [← Finset.sum_neg_distrib]
        exact Finset.sum_congr rfl fun j _ => by simp only [matOf]; ring
      rw [e, this, neg_zero])
    intro j
    have := h4 (σ j)
    simpa using this
  have := hli.fintype_card_le_finrank
  simp at this
  exact le_antisymm h.hm this

/-- The test on `DD` and `sol2` for full rank: it passes exactly when the equations have an integer solution. -/
theorem check_iff (hr : s.crk = m) :
    (∀ i : Fin n, |(if hi : i.val < m then ((Matrix.of fun i j : Fin m => s.S.transpose i (Fin.castLE hmn j)).adjugate *ᵥ s.rhs) ⟨i.val, hi⟩ else 0)
        - forward hmn s.S.transpose (List.finRange m) 0 s.rhs i * (Matrix.of fun i j : Fin m => s.S.transpose i (Fin.castLE hmn j)).det| = 0) ↔
      IntSolvable eqs := by
  set M : Matrix (Fin m) (Fin m) ℤ := Matrix.of fun i j : Fin m => s.S.transpose i (Fin.castLE hmn j) with hM
  set sol := forward hmn s.S.transpose (List.finRange m) 0 s.rhs with hsol
  have hdet : M.det ≠ 0 := (det_ne_zero_iff hmn h).2 hr
  have hconv : ∀ y : Fin n → ℤ, (∀ j, ∑ i, y i * s.S i j = s.rhs j) ↔ M *ᵥ (fun t => y (Fin.castLE hmn t)) = s.rhs := by
    intro y
    rw [funext_iff]
    refine forall_congr' fun j => ?_
    rw [sum_castLE hmn _ fun i hi => by rw [h.rest i j (le_trans h.hm hi), mul_zero]]
    simp only [hM, mulVec, dotProduct, Matrix.of_apply, transpose_apply, mul_comm]
  constructor
  · intro hc
    refine ⟨sol ᵥ* s.U, (solves_echelon h sol).2 ((hconv sol).2 ?_)⟩
    have h1 : M.adjugate *ᵥ s.rhs = M.det • fun t => sol (Fin.castLE hmn t) := by
      funext t
      have := hc (Fin.castLE hmn t)
      rw [dif_pos (show (Fin.castLE hmn t).val < m from t.2), abs_eq_zero, sub_eq_zero] at this
      rw [Pi.smul_apply, smul_eq_mul, mul_comm]
      exact this
    have h2 := congrArg (fun v => M *ᵥ v) h1
    simp only [mulVec_mulVec, mul_adjugate, smul_mulVec, one_mulVec, mulVec_smul] at h2
    funext j
    have h3 := congrFun h2 j
    simp only [Pi.smul_apply, smul_eq_mul] at h3
    exact (mul_left_cancel₀ hdet h3).symm
  · rintro ⟨x, hx⟩ i
    obtain ⟨y, rfl⟩ := unimodular_surj h.unimodular x
    have hy := (solves_echelon h y).1 hx
    have hf := forward_eq hmn h hy i
    rw [← hsol] at hf
    rw [hf, abs_eq_zero, sub_eq_zero]
    by_cases hi : i.val < m
    · rw [dif_pos hi, if_pos (by rw [hr]; exact hi), ← (hconv y).1 hy, mulVec_mulVec, adjugate_mul, smul_mulVec, one_mulVec, Pi.smul_apply,
        smul_eq_mul, mul_comm]
      rfl
    · rw [dif_neg hi, if_neg (by rw [hr]; exact hi), zero_mul]

end

/-! ## The new inequalities -/

theorem newRow_eval {d : ℕ} (p : Fin n → ℤ) (basis : Fin d → Fin n → ℤ) (dil : ℤ) (r : Row n) (z : Fin d → ℤ) :
    (newRow p basis dil r).eval 1 z = r.eval dil (lift dil p basis z) := by
  simp only [newRow, Row.eval, lift, Finset.sum_mul, mul_add, Finset.sum_add_distrib, Finset.mul_sum, one_mul]
  rw [Finset.sum_comm, ← add_assoc]
  congr 1
  · congr 1
    exact Finset.sum_congr rfl fun k _ => by ring
  · exact Finset.sum_congr rfl fun k _ => Finset.sum_congr rfl fun j _ => by ring

theorem trivial_eval {d : ℕ} {r : Row d} (h : ∑ j, |r.a j| = 0) (z : Fin d → ℤ) : r.eval 1 z = r.b := by
  have h0 := (Finset.sum_eq_zero_iff_of_nonneg fun j _ => abs_nonneg (r.a j)).1 h
  rw [Row.eval, Finset.sum_eq_zero fun k hk => by rw [abs_eq_zero.1 (h0 k hk), zero_mul]]
  ring

theorem newRows_none {d : ℕ} {p : Fin n → ℤ} {basis : Fin d → Fin n → ℤ} {dil : ℤ} (ineqs : List (Row n)) (h : newRows p basis dil ineqs = none)
    (z : Fin d → ℤ) : ∃ r ∈ ineqs, r.eval dil (lift dil p basis z) < 0 := by
  induction ineqs with
  | nil => simp [newRows] at h
  | cons r rs ih =>
    rw [newRows] at h
    split at h
    · rename_i h1
      refine ⟨r, by simp, ?_⟩
      rw [← newRow_eval, trivial_eval h1.1]
      exact h1.2
    · split at h
      · rename_i h2
        obtain ⟨r', hr', hlt⟩ := ih h2
        exact ⟨r', by simp [hr'], hlt⟩
      · split at h <;> simp at h

theorem newRows_some {d : ℕ} {p : Fin n → ℤ} {basis : Fin d → Fin n → ℤ} {dil : ℤ} (ineqs : List (Row n)) :
    ∀ out, newRows p basis dil ineqs = some out →
      (∀ z : Fin d → ℤ, (∀ r ∈ out, 0 ≤ r.eval 1 z) ↔ ∀ r ∈ ineqs, 0 ≤ r.eval dil (lift dil p basis z)) ∧ ∀ r ∈ out, ∃ j, r.a j ≠ 0 := by
  induction ineqs with
  | nil => intro out h; simp [newRows] at h; subst h; simp
  | cons r rs ih =>
    intro out h
    rw [newRows] at h
    split at h
    · simp at h
    rename_i h1
    split at h
    · simp at h
    rename_i out' h2
    obtain ⟨h3, h4⟩ := ih out' h2
    split at h
    · rename_i h5
      simp only [Option.some.injEq] at h
      subst h
      refine ⟨?_, ?_⟩
      · intro z
        rw [List.forall_mem_cons, List.forall_mem_cons, h3, newRow_eval]
      · rw [List.forall_mem_cons]
        refine ⟨?_, h4⟩
        by_contra hc
        push Not at hc
        exact h5 (Finset.sum_eq_zero fun j _ => by rw [hc j, abs_zero])
    · rename_i h5
      simp only [Option.some.injEq] at h
      subst h
      push Not at h5
      refine ⟨?_, h4⟩
      intro z
      rw [List.forall_mem_cons, h3, ← newRow_eval, trivial_eval h5]
      constructor
      · intro h6; exact ⟨by by_contra hc; exact h1 ⟨h5, by omega⟩, h6⟩
      · exact fun h6 => h6.2

/-! ## The bijection -/

theorem lift_eval {d : ℕ} (p : Fin n → ℤ) (basis : Fin d → Fin n → ℤ) (dil : ℤ) (r : Row n) (z : Fin d → ℤ) :
    r.eval dil (lift dil p basis z) = dil * r.eval 1 p + ∑ j, z j * ∑ k, r.a k * basis j k := by
  rw [← newRow_eval, newRow, Row.eval, Row.eval]
  simp only [one_mul]
  congr 1
  exact Finset.sum_congr rfl fun j _ => mul_comm _ _

section
variable {eqs : Fin m → Row n} {s : HState n m} (h : HermiteSpec (matOf eqs) (fun j => (eqs j).b) s)
include h

theorem basis_kernel (i : Fin (n - s.crk)) (j : Fin m) : ∑ k, (eqs j).a k * latticeBasis s h.hn i k = 0 := by
  have h1 : ∀ j, ∑ k, latticeBasis s h.hn i k * matOf eqs k j = 0 := by
    have e : ∀ k, latticeBasis s h.hn i k = ∑ t, (if t = i then (1 : ℤ) else 0) * latticeBasis s h.hn t k := by intro k; simp
    refine (latticeBasis_basis h _).2 ⟨fun t => if t = i then 1 else 0, e, ?_⟩
    intro w hw
    apply extend_inj h.hn
    apply unimodular_inj h.unimodular
    funext k
    rw [← basis_sum s h.hn, ← basis_sum s h.hn, ← hw k]
    exact e k
  have := h1 j
  simp only [matOf, mul_neg, Finset.sum_neg_distrib, neg_eq_zero] at this
  rw [← this]
  exact Finset.sum_congr rfl fun k _ => mul_comm _ _

/-- The lift maps onto the integer solutions of the dilated equations. -/
theorem lift_bijective (p : Fin n → ℤ) (hp : ∀ j, (eqs j).eval 1 p = 0) (dil : ℤ) :
    Set.BijOn (lift dil p (latticeBasis s h.hn)) Set.univ {x | ∀ j, (eqs j).eval dil x = 0} := by
  refine ⟨?_, ?_, ?_⟩
  · intro z _ j
    rw [lift_eval, hp j]
    simp [basis_kernel h]
  · intro z _ w _ hzw
    apply extend_inj h.hn
    apply unimodular_inj h.unimodular
    funext k
    have := congrFun hzw k
    simp only [lift] at this
    rw [← basis_sum s h.hn, ← basis_sum s h.hn]
    linarith
  · intro x hx
    have h1 : ∀ j, ∑ k, (x k - dil * p k) * matOf eqs k j = 0 := by
      intro j
      have h2 := hx j
      have h3 := hp j
      simp only [Row.eval, one_mul] at h2 h3
      have e : ∑ k, (x k - dil * p k) * matOf eqs k j = dil * ∑ k, (eqs j).a k * p k - ∑ k, (eqs j).a k * x k := by
        rw [Finset.mul_sum, ← Finset.sum_sub_distrib]
        exact Finset.sum_congr rfl fun k _ => by simp only [matOf]; ring
      rw [e]
      have : dil * ((eqs j).b + ∑ k, (eqs j).a k * p k) = 0 := by rw [h3, mul_zero]
      linarith [mul_add dil (eqs j).b (∑ k, (eqs j).a k * p k)]
    obtain ⟨z, hz, _⟩ := (latticeBasis_basis h _).1 h1
    refine ⟨z, Set.mem_univ _, ?_⟩
    funext k
    have := hz k
    simp only [lift]
    linarith

end

end Verif.Preprocess
