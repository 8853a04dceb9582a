import Verif.Piped.Model
import Verif.Smith.Props
import Verif.Enum.Props
import Mathlib.Data.Fintype.Pi
import Mathlib.Data.Fintype.BigOperators
import Mathlib.Algebra.Order.Floor.Ring
import Mathlib.Tactic.FieldSimp
import Mathlib.LinearAlgebra.Matrix.ToLinearEquiv

/-!
# Lattice points of the fundamental parallelepiped: lemmas
-/

namespace Verif.Piped

open Verif.Barvinok (Mat Vec)
open Matrix

variable {m : ℕ}

/-! ## The enumeration loop -/

theorem loop_ok {α : Type} (f : List ℕ → Option α) (g : List ℕ → α) (L : List (List ℕ))
    (hf : ∀ x ∈ L, f x = some (g x)) (s : Latte.Enum.St)
    (h : ∀ k, Latte.Enum.answers s k = some L[k]?) (fuel : ℕ) (hfuel : L.length < fuel)
    (acc : List α) : loop f fuel s acc = .ok ((L.map g).reverse ++ acc) := by
  induction L generalizing s fuel acc with
  | nil =>
    obtain ⟨k, rfl⟩ : ∃ k, fuel = k + 1 := ⟨fuel - 1, by simp at hfuel; omega⟩
    have h0 := h 0
    unfold Latte.Enum.answers at h0
    unfold loop
    cases hs : Latte.Enum.getNext s with
    | done => simp
    | undefined => rw [hs] at h0; simp at h0
    | out s' v => rw [hs] at h0; simp at h0
  | cons v L ih =>
    obtain ⟨k, rfl⟩ : ∃ k, fuel = k + 1 := ⟨fuel - 1, by simp at hfuel; omega⟩
    have h0 := h 0
    unfold Latte.Enum.answers at h0
    unfold loop
    cases hs : Latte.Enum.getNext s with
    | done => rw [hs] at h0; simp at h0
    | undefined => rw [hs] at h0; simp at h0
    | out s' v' =>
      rw [hs] at h0
      simp only [List.getElem?_cons_zero, Option.some.injEq] at h0
      subst h0
      simp only [hf v' (List.mem_cons_self ..)]
      rw [ih (fun x hx => hf x (List.mem_cons_of_mem _ hx)) s' ?_ k (by simp at hfuel; omega)]
      · simp
      · intro j
        have := h (j + 1)
        unfold Latte.Enum.answers at this
        rw [hs] at this
        simpa using this

/-! ## Arithmetic of one point -/

/-- What is assumed of the cone: the facets are the primitive outer normals belonging to the rays
(established by C15), with the data computed along with them. -/
structure Good (C : Input m) : Prop where
  det : C.determinant = C.rays.det
  ne : C.rays.det ≠ 0
  dual : ∀ i j, ∑ k, C.rays i k * C.facets j k = if i = j then -C.facetDivisors j else 0
  pos : ∀ j, 0 < C.facetDivisors j
  dvd : ∀ j, C.facetDivisors j ∣ C.determinant
  scale : C.vScale ≠ 0

/-- What is used of the coset representatives: each integer vector is `W n + Aᵀ k` for exactly one
`n` in the box. -/
def Cosets (A : Mat (m + 1)) (b : Vec (m + 1) × Mat (m + 1)) : Prop :=
  ∀ v : Vec (m + 1), ∃! n : Vec (m + 1), (∀ j, 0 ≤ n j ∧ n j < b.1 j) ∧
    ∃ k : Vec (m + 1), v = b.2 *ᵥ n + A.transpose *ᵥ k

theorem facets_det_ne {C : Input m} (hC : Good C) : C.facets.det ≠ 0 := by
  have h1 : C.rays * C.facets.transpose = diagonal fun i => -C.facetDivisors i := by
    ext i j
    rw [mul_apply, diagonal_apply]
    simp only [transpose_apply, hC.dual]
    by_cases hij : i = j
    · subst hij; simp
    · simp [hij]
  have h2 := congrArg det h1
  rw [det_mul, det_transpose, det_diagonal] at h2
  intro h0
  rw [h0, mul_zero] at h2
  exact (Finset.prod_ne_zero_iff.mpr fun i _ => neg_ne_zero.mpr (hC.pos i).ne') h2.symm

/-- The facets separate integer vectors. -/
theorem eq_of_facets {C : Input m} (hC : Good C) {x y : Vec (m + 1)}
    (h : ∀ i, ∑ k, C.facets i k * x k = ∑ k, C.facets i k * y k) : x = y := by
  have h1 : C.facets *ᵥ (x - y) = 0 := by
    ext i
    rw [mulVec_sub]
    simp only [Pi.sub_apply, mulVec, dotProduct, Pi.zero_apply, h i, sub_self]
  have := eq_zero_of_mulVec_eq_zero (facets_det_ne hC) h1
  exact sub_eq_zero.mp this

/-- Facet value of a combination of the rays. -/
theorem facet_comb {C : Input m} (hC : Good C) (a : Vec (m + 1)) (j : Fin (m + 1)) :
    ∑ k, C.facets j k * ∑ i, a i * C.rays i k = -(C.facetDivisors j * a j) := by
  have h : ∑ k, C.facets j k * ∑ i, a i * C.rays i k =
      ∑ i, a i * ∑ k, C.rays i k * C.facets j k := by
    simp only [Finset.mul_sum]
    rw [Finset.sum_comm]
    exact Finset.sum_congr rfl fun i _ => Finset.sum_congr rfl fun k _ => by ring
  rw [h]
  simp only [hC.dual]
  rw [Finset.sum_eq_single j]
  · simp; ring
  · intro i _ hij; simp [hij]
  · simp

/-- The set of points the enumeration is about, in facet terms. -/
def InBox (C : Input m) (beta : Vec (m + 1)) (p : Vec (m + 1)) : Prop :=
  ∀ i, beta i - C.facetDivisors i < ∑ k, C.facets i k * p k ∧ ∑ k, C.facets i k * p k ≤ beta i

/-- Two points of the box in the same coset are equal. -/
theorem inBox_unique {C : Input m} (hC : Good C) (beta p q k : Vec (m + 1))
    (hp : InBox C beta p) (hq : InBox C beta q) (hpq : p = q + C.rays.transpose *ᵥ k) : p = q := by
  have hk : ∀ i, k i = 0 := by
    intro i
    have h1 : ∑ l, C.facets i l * p l = ∑ l, C.facets i l * q l - C.facetDivisors i * k i := by
      have := facet_comb hC k i
      rw [hpq]
      simp only [Pi.add_apply, mul_add, Finset.sum_add_distrib]
      have e : ∀ l, (C.rays.transpose *ᵥ k) l = ∑ i, k i * C.rays i l := fun l => by
        simp only [mulVec, dotProduct, transpose_apply]
        exact Finset.sum_congr rfl fun _ _ => mul_comm _ _
      simp only [e, this]
      ring
    have a := hp i
    have b := hq i
    have hd := hC.pos i
    rw [h1] at a
    have l1 : C.facetDivisors i * k i < C.facetDivisors i * 1 := by linarith
    have l2 : C.facetDivisors i * (-1) < C.facetDivisors i * k i := by linarith
    have := lt_of_mul_lt_mul_left l1 hd.le
    have := lt_of_mul_lt_mul_left l2 hd.le
    omega
  rw [hpq]
  have : k = 0 := funext hk
  rw [this]
  simp

/-- The generated point: it is integral before the division, lies in the coset of `W n` and in the
box. -/
theorem generatePoint_spec {C : Input m} (hC : Good C) (b : Vec (m + 1) × Mat (m + 1))
    (n : Vec (m + 1)) :
    (∀ l, ∑ i, scaledMultiplier C (mkGen C b) n i * (mkGen C b).scaleFactors i * C.rays i l =
      |C.determinant| * generatePoint C (mkGen C b) n l) ∧
    InBox C (mkGen C b).beta (generatePoint C (mkGen C b) n) ∧
    ∃ k : Vec (m + 1), generatePoint C (mkGen C b) n = b.2 *ᵥ n + C.rays.transpose *ᵥ k := by
  set g := mkGen C b with hg
  set mu := scaledMultiplier C g n with hmu
  -- facet values of `W n`
  have hw : ∀ i, ∑ l, C.facets i l * (b.2 *ᵥ n) l = ∑ j, (∑ k, b.2 k j * C.facets i k) * n j := by
    intro i
    simp only [mulVec, dotProduct, Finset.mul_sum, Finset.sum_mul]
    rw [Finset.sum_comm]
    exact Finset.sum_congr rfl fun _ _ => Finset.sum_congr rfl fun _ _ => by ring
  have hcong : ∀ i, ∃ k, ∑ l, C.facets i l * (b.2 *ᵥ n) l + mu i = C.facetDivisors i * k := by
    intro i
    have e1 : ∃ a, ∑ j, g.tau i j * n j =
        ∑ j, (∑ k, b.2 k j * C.facets i k) * n j + C.facetDivisors i * a := by
      refine ⟨-∑ j, ((∑ k, b.2 k j * C.facets i k) / C.facetDivisors i) * n j, ?_⟩
      rw [mul_neg, ← sub_eq_add_neg, Finset.mul_sum, ← Finset.sum_sub_distrib]
      refine Finset.sum_congr rfl fun j _ => ?_
      have : g.tau i j = (∑ k, b.2 k j * C.facets i k) % C.facetDivisors i := rfl
      rw [this, Int.emod_def]
      ring
    obtain ⟨a, ha⟩ := e1
    have e2 : g.betaMod i = g.beta i - C.facetDivisors i * (g.beta i / C.facetDivisors i) := by
      show g.beta i % C.facetDivisors i = _
      rw [Int.emod_def]
    have e3 : mu i = (g.betaMod i - ∑ j, g.tau i j * n j) -
        C.facetDivisors i * ((g.betaMod i - ∑ j, g.tau i j * n j) / C.facetDivisors i) - g.beta i := by
      show (g.betaMod i - ∑ j, g.tau i j * n j) % C.facetDivisors i - g.beta i = _
      rw [Int.emod_def]
    refine ⟨-(g.beta i / C.facetDivisors i) - a -
      ((g.betaMod i - ∑ j, g.tau i j * n j) / C.facetDivisors i), ?_⟩
    rw [hw, e3]
    generalize (g.betaMod i - ∑ j, g.tau i j * n j) / C.facetDivisors i = q
    rw [e2, ha]
    ring
  choose k hk using hcong
  set p : Vec (m + 1) := b.2 *ᵥ n + C.rays.transpose *ᵥ k with hp
  have e : ∀ (a : Vec (m + 1)) l, (C.rays.transpose *ᵥ a) l = ∑ i, a i * C.rays i l := fun a l => by
    simp only [mulVec, dotProduct, transpose_apply]
    exact Finset.sum_congr rfl fun _ _ => mul_comm _ _
  have hfp : ∀ i, ∑ l, C.facets i l * p l = -mu i := by
    intro i
    have h1 := facet_comb hC k i
    simp only [hp, Pi.add_apply, mul_add, Finset.sum_add_distrib, e, h1]
    have := hk i
    linarith
  have hsum : ∀ l, ∑ i, mu i * g.scaleFactors i * C.rays i l = |C.determinant| * p l := by
    have : (fun l => ∑ i, mu i * g.scaleFactors i * C.rays i l) =
        fun l => |C.determinant| * p l := by
      apply eq_of_facets hC
      intro i
      rw [facet_comb hC (fun i => mu i * g.scaleFactors i) i]
      have h2 : ∑ l, C.facets i l * (|C.determinant| * p l) =
          |C.determinant| * ∑ l, C.facets i l * p l := by
        rw [Finset.mul_sum]
        exact Finset.sum_congr rfl fun _ _ => by ring
      rw [h2, hfp]
      have h3 : C.facetDivisors i * g.scaleFactors i = |C.determinant| :=
        Int.mul_ediv_cancel' ((dvd_abs _ _).mpr (hC.dvd i))
      rw [← h3]; ring
    exact fun l => congrFun this l
  have hD : |C.determinant| ≠ 0 := by
    rw [hC.det]; exact abs_ne_zero.mpr hC.ne
  have hgp : generatePoint C g n = p := by
    ext l
    show (∑ i, mu i * g.scaleFactors i * C.rays i l) / |C.determinant| = p l
    rw [hsum]
    exact Int.mul_ediv_cancel_left _ hD
  rw [hgp]
  refine ⟨hsum, fun i => ?_, k, hp⟩
  rw [hfp]
  have h4 : mu i = (g.betaMod i - ∑ j, g.tau i j * n j) % C.facetDivisors i - g.beta i := rfl
  have h5 := Int.emod_nonneg (g.betaMod i - ∑ j, g.tau i j * n j) (hC.pos i).ne'
  have h6 := Int.emod_lt_of_pos (g.betaMod i - ∑ j, g.tau i j * n j) (hC.pos i)
  constructor <;> linarith

/-- The basis computed by the constructor, both cases. -/
theorem basis_spec (X : Smith.Xgcd) {C : Input m} (hC : Good C) :
    ∃ b, basis X C = some b ∧ (∀ j, 0 < b.1 j) ∧ ∏ j, b.1 j = |C.determinant| ∧
      Cosets C.rays b := by
  have hdet : C.rays.transpose.det ≠ 0 := by rw [det_transpose]; exact hC.ne
  unfold basis
  simp only
  by_cases h1 : |C.determinant| = 1
  · rw [if_pos h1]
    refine ⟨_, rfl, fun _ => by norm_num, by simp [h1], fun v => ?_⟩
    have hu : IsUnit C.rays.transpose.det := by
      rw [det_transpose, Int.isUnit_iff, ← hC.det]
      exact (abs_eq (by norm_num)).mp h1
    refine ⟨0, ⟨fun j => by simp, C.rays.transpose⁻¹ *ᵥ v, ?_⟩, ?_⟩
    · rw [mulVec_zero, zero_add, mulVec_mulVec, mul_nonsing_inv _ hu, one_mulVec]
    · rintro n ⟨hn, -⟩
      ext j
      have h2 := (hn j).1
      have h3 : n j < 1 := (hn j).2
      simp only [Pi.zero_apply]
      omega
  · rw [if_neg h1]
    have hs := Smith.c14_smith_partial X C.rays.transpose hdet
    rw [if_pos (fun i j => Int.emod_eq_zero_of_dvd (hs.cols i j))]
    refine ⟨_, rfl, hs.pos, ?_, fun v => ?_⟩
    · rw [hC.det, ← det_transpose]; exact hs.prod
    · exact Smith.c14_cosets X C.rays.transpose hdet v

end Verif.Piped
