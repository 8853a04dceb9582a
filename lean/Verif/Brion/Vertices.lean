import Verif.Barvinok.Lines
import Mathlib.Analysis.Convex.Extreme
import Mathlib.LinearAlgebra.Dimension.Constructions
import Mathlib.LinearAlgebra.FiniteDimensional.Lemmas
import Mathlib.Algebra.BigOperators.Ring.Finset
import Mathlib.Topology.Algebra.Order.Field

/-!
# Brion's theorem for polyhedra

The indicator function of every polyhedron with rational facet normals is the sum of the indicator functions of its
tangent cones at its vertices, up to functions constant along lines.  Elementary proof: a linear dependence between more
than `n` normals gives a polynomial relation between the indicators of the half-spaces (`half_relation`), so the indicator is an
integer combination of those with at most `n` half-spaces (`eliminate`); looking at it from very close to a point gives
the tangent cones.
-/

namespace Verif.Brion

open Verif.Barvinok Verif.Barvinok.Spec

variable {n N : ℕ}

/-- Specification: the polyhedron `{x | aᵢ · x ≤ bᵢ}`. -/
def Poly (a : Fin N → Vec n) (b : Fin N → ℝ) : Set (Fin n → ℝ) := {x | ∀ i, dot (a i) x ≤ b i}

/-- Specification: the tangent cone at `v`: the inequalities that are equations at `v`. -/
def TCone (a : Fin N → Vec n) (b : Fin N → ℝ) (v : Fin n → ℝ) : Set (Fin n → ℝ) :=
  {x | ∀ i, dot (a i) v = b i → dot (a i) x ≤ b i}

open scoped Classical

/-- Indicator of one half-space. -/
noncomputable def hs (a : Fin N → Vec n) (b : Fin N → ℝ) (i : Fin N) (x : Fin n → ℝ) : ℤ := if dot (a i) x ≤ b i then 1 else 0

/-- Indicator of the intersection of some half-spaces. -/
noncomputable def hsInd (a : Fin N → Vec n) (b : Fin N → ℝ) (S : Finset (Fin N)) (x : Fin n → ℝ) : ℤ := ∏ i ∈ S, hs a b i x

theorem dot_add' (f : Vec n) (x y : Fin n → ℝ) : dot f (x + y) = dot f x + dot f y := by
  unfold dot
  rw [← Finset.sum_add_distrib]
  exact Finset.sum_congr rfl fun k _ => by rw [Pi.add_apply, mul_add]

theorem dot_smul' (f : Vec n) (t : ℝ) (x : Fin n → ℝ) : dot f (t • x) = t * dot f x := by
  unfold dot
  rw [Finset.mul_sum]
  exact Finset.sum_congr rfl fun k _ => by rw [Pi.smul_apply, smul_eq_mul]; ring

theorem hs_eq_zero_or_one (a : Fin N → Vec n) (b : Fin N → ℝ) (i : Fin N) (x : Fin n → ℝ) : hs a b i x = 0 ∨ hs a b i x = 1 := by
  unfold hs; split_ifs <;> simp

theorem hsInd_eq (a : Fin N → Vec n) (b : Fin N → ℝ) (S : Finset (Fin N)) (x : Fin n → ℝ) :
    hsInd a b S x = if ∀ i ∈ S, dot (a i) x ≤ b i then 1 else 0 := by
  unfold hsInd
  split_ifs with h
  · exact Finset.prod_eq_one fun i hi => if_pos (h i hi)
  · push Not at h
    obtain ⟨i, hi, h⟩ := h
    exact Finset.prod_eq_zero hi (if_neg (not_le.2 h))

/-- Some integer direction is orthogonal to all normals in `S`. -/
def Lined (a : Fin N → Vec n) (S : Finset (Fin N)) : Prop := ∃ l : Vec n, l ≠ 0 ∧ ∀ i ∈ S, ∑ k, a i k * l k = 0

theorem lined_of_card_lt (a : Fin N → Vec n) (S : Finset (Fin N)) (h : S.card < n) : Lined a S := by
  let M : Mat n := fun r => if hr : r.val < S.card then a (S.equivFin.symm ⟨r, hr⟩) else 0
  have hM : M.det = 0 := by
    apply Matrix.det_eq_zero_of_row_eq_zero (⟨S.card, h⟩ : Fin n)
    intro j
    simp [M]
  obtain ⟨l, hl, h0⟩ := Matrix.exists_mulVec_eq_zero_iff.mpr hM
  refine ⟨l, hl, fun i hi => ?_⟩
  have hlt : (S.equivFin ⟨i, hi⟩).val < n := lt_trans (S.equivFin ⟨i, hi⟩).2 h
  have := congrFun h0 ⟨_, hlt⟩
  simp only [Matrix.mulVec, dotProduct, M, Fin.is_lt, dite_true, Fin.eta, Equiv.symm_apply_apply, Pi.zero_apply] at this
  exact this

theorem lined_or_indep (a : Fin N → Vec n) (S : Finset (Fin N)) (h : S.card = n) :
    Lined a S ∨ ∀ l : Fin n → ℝ, (∀ i ∈ S, dot (a i) l = 0) → l = 0 := by
  subst h
  let M : Mat S.card := fun r => a (S.equivFin.symm r)
  by_cases hM : M.det = 0
  · left
    obtain ⟨l, hl, h0⟩ := Matrix.exists_mulVec_eq_zero_iff.mpr hM
    refine ⟨l, hl, fun i hi => ?_⟩
    have := congrFun h0 (S.equivFin ⟨i, hi⟩)
    simpa only [Matrix.mulVec, dotProduct, M, Equiv.symm_apply_apply, Pi.zero_apply] using this
  · right
    intro l hl
    by_contra hne
    have hdet : (M.map (Int.cast : ℤ → ℝ)).det = 0 := by
      apply Matrix.exists_mulVec_eq_zero_iff.mp
      refine ⟨l, hne, ?_⟩
      funext r
      have := hl _ (S.equivFin.symm r).2
      exact this
    have h2 : (M.map (Int.cast : ℤ → ℝ)).det = ((M.det : ℤ) : ℝ) := by
      have := (RingHom.map_det (Int.castRingHom ℝ) M).symm
      simpa using this
    rw [h2] at hdet
    exact hM (by exact_mod_cast hdet)

/-- A point satisfying the first inequalities satisfies one of the second. -/
theorem half_relation (a : Fin N → Vec n) (b : Fin N → ℝ) (S : Finset (Fin N)) (μ : Fin N → ℝ)
    (h0 : ∀ x : Fin n → ℝ, ∑ i ∈ S, μ i * dot (a i) x = 0) (hs' : ∑ i ∈ S, μ i * b i ≤ 0)
    (hne : (∃ i ∈ S, μ i < 0) ∨ ∑ i ∈ S, μ i * b i < 0) (x : Fin n → ℝ) :
    (∏ i ∈ S with 0 ≤ μ i, hs a b i x) * ∏ i ∈ S with ¬ 0 ≤ μ i, (1 - hs a b i x) = 0 := by
  by_contra hc
  have h1 : ∀ i ∈ S, 0 ≤ μ i → dot (a i) x ≤ b i := by
    intro i hi hμ
    by_contra hlt
    exact hc (by rw [Finset.prod_eq_zero (Finset.mem_filter.2 ⟨hi, hμ⟩) (if_neg hlt), zero_mul])
  have h2 : ∀ i ∈ S, ¬ 0 ≤ μ i → b i < dot (a i) x := by
    intro i hi hμ
    by_contra hlt
    exact hc (by
      rw [Finset.prod_eq_zero (s := {i ∈ S | ¬ 0 ≤ μ i}) (Finset.mem_filter.2 ⟨hi, hμ⟩)
        (by rw [hs, if_pos (not_lt.1 hlt), sub_self]), mul_zero])
  have h3 : ∀ i ∈ S, μ i * dot (a i) x ≤ μ i * b i := by
    intro i hi
    by_cases hμ : 0 ≤ μ i
    · exact mul_le_mul_of_nonneg_left (h1 i hi hμ) hμ
    · exact mul_le_mul_of_nonpos_left (h2 i hi hμ).le (not_le.1 hμ).le
  rcases hne with ⟨i, hi, hμ⟩ | hlt
  · have : ∑ i ∈ S, μ i * dot (a i) x < ∑ i ∈ S, μ i * b i :=
      Finset.sum_lt_sum h3 ⟨i, hi, mul_lt_mul_of_neg_left (h2 i hi (not_le.2 hμ)) hμ⟩
    rw [h0] at this
    linarith
  · have := Finset.sum_le_sum h3
    rw [h0] at this
    linarith

/-- Sets of half-spaces that are not reduced further. -/
def Basic (a : Fin N → Vec n) (S : Finset (Fin N)) : Prop :=
  Lined a S ∨ (S.card = n ∧ ∀ l : Fin n → ℝ, (∀ i ∈ S, dot (a i) l = 0) → l = 0)

theorem exists_relation (a : Fin N → Vec n) (S : Finset (Fin N)) (h : n < S.card) :
    ∃ μ : Fin N → ℝ, (∃ i ∈ S, μ i ≠ 0) ∧ ∀ x : Fin n → ℝ, ∑ i ∈ S, μ i * dot (a i) x = 0 := by
  have hdep : ¬ LinearIndependent ℝ (fun i : S => (fun k => (a i k : ℝ) : Fin n → ℝ)) := by
    intro hli
    have := hli.fintype_card_le_finrank
    rw [Module.finrank_fin_fun, Fintype.card_coe] at this
    omega
  rw [Fintype.not_linearIndependent_iff] at hdep
  obtain ⟨g, hg, i0, hi0⟩ := hdep
  refine ⟨fun i => if hi : i ∈ S then g ⟨i, hi⟩ else 0, ⟨i0, i0.2, by simpa using hi0⟩, fun x => ?_⟩
  rw [← Finset.sum_coe_sort S fun i => (if hi : i ∈ S then g ⟨i, hi⟩ else 0) * dot (a i) x]
  have h1 : ∀ i : S, (if hi : i.1 ∈ S then g ⟨i, hi⟩ else 0) * dot (a i) x = ∑ k, (g i * a i k) * x k := by
    intro i
    rw [dif_pos i.2]
    unfold dot
    rw [Finset.mul_sum]
    exact Finset.sum_congr rfl fun k _ => by ring
  rw [Finset.sum_congr rfl fun i _ => h1 i, Finset.sum_comm]
  refine Finset.sum_eq_zero fun k _ => ?_
  rw [← Finset.sum_mul]
  have := congrFun hg k
  simp only [Finset.sum_apply, Pi.smul_apply, smul_eq_mul, Pi.zero_apply] at this
  rw [this, zero_mul]

/-- **Elimination.** The indicator of any intersection of half-spaces is an integer combination of indicators of basic
intersections of some of them. -/
theorem eliminate (a : Fin N → Vec n) (b : Fin N → ℝ) (S : Finset (Fin N)) :
    ∃ c : Finset (Fin N) → ℤ, (∀ T, c T ≠ 0 → Basic a T) ∧ ∀ x, hsInd a b S x = ∑ T, c T * hsInd a b T x := by
  induction hm : S.card using Nat.strong_induction_on generalizing S with
  | _ m ih =>
    by_cases hb : Basic a S
    · refine ⟨Pi.single S 1, fun T hT => ?_, fun x => ?_⟩
      · by_cases h : T = S
        · rw [h]; exact hb
        · rw [Pi.single_eq_of_ne h] at hT; exact absurd rfl hT
      · rw [Finset.sum_eq_single S (fun T _ h => by rw [Pi.single_eq_of_ne h, zero_mul]) (by simp), Pi.single_eq_same, one_mul]
    · have hcard : n < S.card := by
        by_contra hc
        rcases lt_or_eq_of_le (not_lt.1 hc) with h | h
        · exact hb (Or.inl (lined_of_card_lt a S h))
        · rcases lined_or_indep a S h with h1 | h1
          · exact hb (Or.inl h1)
          · exact hb (Or.inr ⟨h, h1⟩)
      obtain ⟨μ0, hμ0, hrel0⟩ := exists_relation a S hcard
      obtain ⟨μ, hs', hne, hrel⟩ : ∃ μ : Fin N → ℝ, ∑ i ∈ S, μ i * b i ≤ 0 ∧
          ((∃ i ∈ S, μ i < 0) ∨ ∑ i ∈ S, μ i * b i < 0) ∧ ∀ x : Fin n → ℝ, ∑ i ∈ S, μ i * dot (a i) x = 0 := by
        have hneg : ∀ f : Fin N → ℝ, ∑ i ∈ S, (-μ0) i * f i = -∑ i ∈ S, μ0 i * f i := by
          intro f
          rw [← Finset.sum_neg_distrib]
          exact Finset.sum_congr rfl fun i _ => by rw [Pi.neg_apply, neg_mul]
        rcases lt_trichotomy (∑ i ∈ S, μ0 i * b i) 0 with h | h | h
        · exact ⟨μ0, h.le, Or.inr h, hrel0⟩
        · obtain ⟨i, hi, hi'⟩ := hμ0
          rcases lt_or_gt_of_ne hi' with h' | h'
          · exact ⟨μ0, h.le, Or.inl ⟨i, hi, h'⟩, hrel0⟩
          · exact ⟨-μ0, by rw [hneg, h, neg_zero], Or.inl ⟨i, hi, by simpa using h'⟩, fun x => by rw [hneg, hrel0, neg_zero]⟩
        · exact ⟨-μ0, by rw [hneg]; linarith, Or.inr (by rw [hneg]; linarith), fun x => by rw [hneg, hrel0, neg_zero]⟩
      set A := S.filter fun i => 0 ≤ μ i with hA
      set B := S.filter fun i => ¬ 0 ≤ μ i with hB
      have hAB : Disjoint A B := Finset.disjoint_filter_filter_not S S _
      have hun : A ∪ B = S := Finset.filter_union_filter_not_eq _ S
      have hexp : ∀ x, ∑ J ∈ B.powerset, (-1) ^ J.card * hsInd a b (A ∪ J) x = 0 := by
        intro x
        have h1 := half_relation a b S μ hrel hs' hne x
        rw [Finset.prod_congr rfl (fun i _ => sub_eq_add_neg (1 : ℤ) (hs a b i x)), Finset.prod_one_add,
          Finset.mul_sum] at h1
        rw [← h1]
        refine Finset.sum_congr rfl fun J hJ => ?_
        have hd : Disjoint A J := Finset.disjoint_of_subset_right (Finset.mem_powerset.1 hJ) hAB
        unfold hsInd
        rw [Finset.prod_union hd, Finset.prod_neg]
        ring
      have hIH : ∀ J, J ∈ B.powerset.erase B → ∃ c : Finset (Fin N) → ℤ, (∀ T, c T ≠ 0 → Basic a T) ∧
          ∀ x, hsInd a b (A ∪ J) x = ∑ T, c T * hsInd a b T x := by
        intro J hJ
        obtain ⟨h1, h2⟩ := Finset.mem_erase.1 hJ
        refine ih _ ?_ _ rfl
        rw [← hm, ← hun]
        apply Finset.card_lt_card
        have h3 := Finset.mem_powerset.1 h2
        refine ⟨Finset.union_subset_union_right h3, fun hsub => h1 (Finset.Subset.antisymm h3 fun i hi => ?_)⟩
        rcases Finset.mem_union.1 (hsub (Finset.mem_union_right _ hi)) with h | h
        · exact absurd hi (Finset.disjoint_left.1 hAB h)
        · exact h
      choose! cf h1 h2 using hIH
      refine ⟨fun T => ∑ J ∈ B.powerset.erase B, -((-1) ^ B.card * (-1) ^ J.card) * cf J T, fun T hT => ?_, fun x => ?_⟩
      · obtain ⟨J, hJ, hne'⟩ := Finset.exists_ne_zero_of_sum_ne_zero hT
        exact h1 J hJ T fun h => hne' (by rw [h, mul_zero])
      · have h3 := hexp x
        rw [← Finset.add_sum_erase _ _ (Finset.mem_powerset_self B), hun] at h3
        have hsq : ((-1 : ℤ) ^ B.card) * (-1) ^ B.card = 1 := by
          rw [← mul_pow]; norm_num
        have h4 : hsInd a b S x = ∑ J ∈ B.powerset.erase B, -((-1) ^ B.card * (-1) ^ J.card) * hsInd a b (A ∪ J) x := by
          have h5 : hsInd a b S x = -((-1) ^ B.card * ∑ J ∈ B.powerset.erase B, (-1) ^ J.card * hsInd a b (A ∪ J) x) := by
            linear_combination (-1 : ℤ) ^ B.card * h3 - hsInd a b S x * hsq
          rw [h5, Finset.mul_sum, ← Finset.sum_neg_distrib]
          exact Finset.sum_congr rfl fun J _ => by ring
        rw [h4, Finset.sum_congr rfl fun J hJ => by rw [h2 J hJ x]]
        simp only [Finset.mul_sum, Finset.sum_mul]
        rw [Finset.sum_comm]
        exact Finset.sum_congr rfl fun T _ => Finset.sum_congr rfl fun J _ => by ring

/-! ### Looking from close to a point -/

open Filter Topology

/-- What one sees of a half-space from close to `v`. -/
noncomputable def tcs (a : Fin N → Vec n) (b : Fin N → ℝ) (v : Fin n → ℝ) (i : Fin N) (y : Fin n → ℝ) : ℤ :=
  if dot (a i) v < b i then 1 else if dot (a i) v = b i then hs a b i y else 0

/-- What one sees of an intersection of half-spaces. -/
noncomputable def tcInd (a : Fin N → Vec n) (b : Fin N → ℝ) (v : Fin n → ℝ) (S : Finset (Fin N)) (y : Fin n → ℝ) : ℤ :=
  ∏ i ∈ S, tcs a b v i y

theorem tcs_ev (a : Fin N → Vec n) (b : Fin N → ℝ) (v y : Fin n → ℝ) (i : Fin N) :
    ∀ᶠ ε in 𝓝[>] (0 : ℝ), hs a b i (v + ε • (y - v)) = tcs a b v i y := by
  have e : ∀ ε : ℝ, dot (a i) (v + ε • (y - v)) = dot (a i) v + ε * (dot (a i) y - dot (a i) v) := by
    intro ε
    have h1 : dot (a i) y = dot (a i) v + dot (a i) (y - v) := by rw [← dot_add', add_sub_cancel]
    rw [dot_add', dot_smul', h1]; ring
  have hc : Tendsto (fun ε : ℝ => dot (a i) v + ε * (dot (a i) y - dot (a i) v)) (𝓝[>] 0) (𝓝 (dot (a i) v)) := by
    have : Tendsto (fun ε : ℝ => dot (a i) v + ε * (dot (a i) y - dot (a i) v)) (𝓝 0)
        (𝓝 (dot (a i) v + 0 * (dot (a i) y - dot (a i) v))) := by
      apply Continuous.tendsto; fun_prop
    rw [zero_mul, add_zero] at this
    exact this.mono_left nhdsWithin_le_nhds
  unfold tcs
  rcases lt_trichotomy (dot (a i) v) (b i) with h | h | h
  · rw [if_pos h]
    filter_upwards [hc.eventually (eventually_lt_nhds h)] with ε hε
    unfold hs
    rw [e, if_pos hε.le]
  · rw [if_neg (by rw [h]; exact lt_irrefl _), if_pos h]
    filter_upwards [self_mem_nhdsWithin] with ε hε
    have hε' : (0 : ℝ) < ε := hε
    unfold hs
    rw [e, h]
    have : b i + ε * (dot (a i) y - b i) ≤ b i ↔ dot (a i) y ≤ b i := by
      constructor
      · intro h1
        have : ε * (dot (a i) y - b i) ≤ 0 := by linarith
        by_contra hc
        have := mul_pos hε' (show 0 < dot (a i) y - b i by linarith)
        linarith
      · intro h1
        have := mul_nonpos_of_nonneg_of_nonpos hε'.le (show dot (a i) y - b i ≤ 0 by linarith)
        linarith
    simp only [this]
  · rw [if_neg (not_lt.2 h.le), if_neg (ne_of_gt h)]
    filter_upwards [hc.eventually (eventually_gt_nhds h)] with ε hε
    unfold hs
    rw [e, if_neg (not_le.2 hε)]

theorem tcInd_ev (a : Fin N → Vec n) (b : Fin N → ℝ) (v y : Fin n → ℝ) :
    ∀ᶠ ε in 𝓝[>] (0 : ℝ), ∀ S, hsInd a b S (v + ε • (y - v)) = tcInd a b v S y := by
  have : ∀ᶠ ε in 𝓝[>] (0 : ℝ), ∀ i, hs a b i (v + ε • (y - v)) = tcs a b v i y := by
    rw [Filter.eventually_all]
    exact fun i => tcs_ev a b v y i
  filter_upwards [this] with ε h S
  exact Finset.prod_congr rfl fun i _ => h i

theorem tcInd_relation (a : Fin N → Vec n) (b : Fin N → ℝ) (S : Finset (Fin N)) (c : Finset (Fin N) → ℤ)
    (h : ∀ x, hsInd a b S x = ∑ T, c T * hsInd a b T x) (v y : Fin n → ℝ) :
    tcInd a b v S y = ∑ T, c T * tcInd a b v T y := by
  obtain ⟨ε, hε⟩ := (tcInd_ev a b v y).exists
  rw [← hε S, h]
  exact Finset.sum_congr rfl fun T _ => by rw [hε T]

/-- A function of the scalar products with the normals in a lined set is constant along a line. -/
theorem constAlong_of_lined (a : Fin N → Vec n) (S : Finset (Fin N)) (hS : Lined a S) (g : (Fin n → ℝ) → ℤ)
    (hg : ∀ y y', (∀ i ∈ S, dot (a i) y = dot (a i) y') → g y = g y') : g ∈ lineFn n := by
  apply Submodule.subset_span
  obtain ⟨l, hl, h⟩ := hS
  exact ⟨l, hl, fun t y => hg _ _ fun i hi => dot_add_line (a i) l (h i hi) t y⟩

theorem hs_congr (a : Fin N → Vec n) (b : Fin N → ℝ) (i : Fin N) (y y' : Fin n → ℝ) (h : dot (a i) y = dot (a i) y') :
    hs a b i y = hs a b i y' := by unfold hs; rw [h]

theorem hsInd_lined (a : Fin N → Vec n) (b : Fin N → ℝ) (S : Finset (Fin N)) (hS : Lined a S) : hsInd a b S ∈ lineFn n :=
  constAlong_of_lined a S hS _ fun y y' h => Finset.prod_congr rfl fun i hi => hs_congr a b i y y' (h i hi)

theorem tcs_congr (a : Fin N → Vec n) (b : Fin N → ℝ) (v : Fin n → ℝ) (i : Fin N) (y y' : Fin n → ℝ)
    (h : dot (a i) y = dot (a i) y') : tcs a b v i y = tcs a b v i y' := by
  unfold tcs; rw [hs_congr a b i y y' h]

theorem tcInd_lined (a : Fin N → Vec n) (b : Fin N → ℝ) (v : Fin n → ℝ) (S : Finset (Fin N)) (hS : Lined a S) :
    tcInd a b v S ∈ lineFn n :=
  constAlong_of_lined a S hS _ fun y y' h => Finset.prod_congr rfl fun i hi => tcs_congr a b v i y y' (h i hi)

/-- From a point that is not on all the hyperplanes one sees lines. -/
theorem tcInd_off (a : Fin N → Vec n) (b : Fin N → ℝ) (v : Fin n → ℝ) (S : Finset (Fin N)) (hS : S.card = n) (i : Fin N)
    (hi : i ∈ S) (hne : dot (a i) v ≠ b i) : tcInd a b v S ∈ lineFn n := by
  apply constAlong_of_lined a (S.erase i) (lined_of_card_lt a _ (by rw [Finset.card_erase_of_mem hi, ← hS]
                                                                    exact Nat.sub_lt (Finset.card_pos.2 ⟨i, hi⟩) one_pos))
  intro y y' h
  refine Finset.prod_congr rfl fun j hj => ?_
  by_cases hji : j = i
  · subst hji
    unfold tcs
    rw [if_neg hne, if_neg hne]
  · exact tcs_congr a b v j y y' (h j (Finset.mem_erase.2 ⟨hji, hj⟩))

theorem tcInd_apex (a : Fin N → Vec n) (b : Fin N → ℝ) (v : Fin n → ℝ) (S : Finset (Fin N)) (h : ∀ i ∈ S, dot (a i) v = b i) :
    tcInd a b v S = hsInd a b S := by
  funext y
  refine Finset.prod_congr rfl fun i hi => ?_
  unfold tcs
  rw [if_neg (by rw [h i hi]; exact lt_irrefl _), if_pos (h i hi)]

theorem exists_apex (a : Fin N → Vec n) (b : Fin N → ℝ) (S : Finset (Fin N)) (hS : S.card = n)
    (hind : ∀ l : Fin n → ℝ, (∀ i ∈ S, dot (a i) l = 0) → l = 0) : ∃ v : Fin n → ℝ, ∀ i ∈ S, dot (a i) v = b i := by
  let f : (Fin n → ℝ) →ₗ[ℝ] (S → ℝ) :=
    { toFun := fun x i => dot (a i) x
      map_add' := fun x y => by funext i; exact dot_add' _ _ _
      map_smul' := fun t x => by funext i; exact dot_smul' _ _ _ }
  have hinj : Function.Injective f := by
    rw [← LinearMap.ker_eq_bot, LinearMap.ker_eq_bot']
    intro l hl
    exact hind l fun i hi => congrFun hl ⟨i, hi⟩
  have hdim : Module.finrank ℝ (Fin n → ℝ) = Module.finrank ℝ (S → ℝ) := by
    rw [Module.finrank_fin_fun, Module.finrank_fintype_fun_eq_card, Fintype.card_coe, hS]
  have hsur := (LinearMap.injective_iff_surjective_of_finrank_eq_finrank hdim).1 hinj
  obtain ⟨v, hv⟩ := hsur fun i => b i
  exact ⟨v, fun i hi => congrFun hv ⟨i, hi⟩⟩

/-! ### Vertices -/

/-- A point of a polyhedron is a vertex as soon as the equations holding at it determine it. -/
theorem extreme_of_active (a : Fin N → Vec n) (b : Fin N → ℝ) (v : Fin n → ℝ) (hv : v ∈ Poly a b)
    (h : ∀ l : Fin n → ℝ, (∀ i, dot (a i) v = b i → dot (a i) l = 0) → l = 0) : v ∈ (Poly a b).extremePoints ℝ := by
  refine ⟨hv, fun x hx y hy hseg => ?_⟩
  obtain ⟨s, t, hs, ht, hst, rfl⟩ := hseg
  have hd : ∀ i, dot (a i) (s • x + t • y) = s * dot (a i) x + t * dot (a i) y := by
    intro i; rw [dot_add', dot_smul', dot_smul']
  have hz := h (y - x) fun i hi => by
    have hx' := hx i
    have hy' := hy i
    rw [hd] at hi
    have h1 : dot (a i) x = b i := by
      apply le_antisymm hx'
      by_contra hc
      push Not at hc
      have : s * dot (a i) x < s * b i := mul_lt_mul_of_pos_left hc hs
      have : t * dot (a i) y ≤ t * b i := mul_le_mul_of_nonneg_left hy' ht.le
      have : s * b i + t * b i = b i := by rw [← add_mul, hst, one_mul]
      linarith
    have h2 : dot (a i) y = b i := by
      have : s * b i + t * b i = b i := by rw [← add_mul, hst, one_mul]
      rw [h1] at hi
      have : t * dot (a i) y = t * b i := by linarith
      exact mul_left_cancel₀ ht.ne' this
    have : dot (a i) y = dot (a i) x + dot (a i) (y - x) := by rw [← dot_add', add_sub_cancel]
    linarith
  have : y = x := sub_eq_zero.1 hz
  rw [this, ← add_smul, hst, one_smul]

/-- **Brion's theorem.** The indicator of a polyhedron is the sum of the indicators of its tangent cones at its
vertices, up to functions constant along lines. -/
theorem brion (a : Fin N → Vec n) (b : Fin N → ℝ) (verts : Finset (Fin n → ℝ))
    (hv : ∀ v, v ∈ verts ↔ v ∈ (Poly a b).extremePoints ℝ) :
    (fun y => ind (Poly a b) y - ∑ v ∈ verts, ind (TCone a b v) y) ∈ lineFn n := by
  obtain ⟨c, hc, hrel⟩ := eliminate a b Finset.univ
  have hap : ∀ T : Finset (Fin N), ∃ v : Fin n → ℝ, (T.card = n ∧ ∀ l : Fin n → ℝ, (∀ i ∈ T, dot (a i) l = 0) → l = 0) →
      ∀ i ∈ T, dot (a i) v = b i := by
    intro T
    by_cases h : T.card = n ∧ ∀ l : Fin n → ℝ, (∀ i ∈ T, dot (a i) l = 0) → l = 0
    · obtain ⟨v, hv⟩ := exists_apex a b T h.1 h.2
      exact ⟨v, fun _ => hv⟩
    · exact ⟨0, fun h' => absurd h' h⟩
  choose apex hapex using hap
  set X : Finset (Fin n → ℝ) := verts ∪ (Finset.univ.filter fun T : Finset (Fin N) =>
    T.card = n ∧ ∀ l : Fin n → ℝ, (∀ i ∈ T, dot (a i) l = 0) → l = 0).image apex with hX
  have hmem : ∀ x ∈ X, x ∈ Poly a b → x ∈ verts := by
    intro x hx hP
    rcases Finset.mem_union.1 hx with h | h
    · exact h
    · obtain ⟨T, hT, rfl⟩ := Finset.mem_image.1 h
      have hT' := (Finset.mem_filter.1 hT).2
      rw [hv]
      exact extreme_of_active a b _ hP fun l hl => hT'.2 l fun i hi => hl i (hapex T hT' i hi)
  have htc : ∀ x y, tcInd a b x Finset.univ y = if x ∈ Poly a b then ind (TCone a b x) y else 0 := by
    intro x y
    by_cases hP : x ∈ Poly a b
    · rw [if_pos hP]
      unfold ind
      by_cases hy : y ∈ TCone a b x
      · rw [if_pos hy]
        refine Finset.prod_eq_one fun i _ => ?_
        unfold tcs
        split_ifs with h1 h2
        · rfl
        · exact if_pos (hy i h2)
        · exact absurd (lt_or_eq_of_le (hP i)) (by tauto)
      · rw [if_neg hy]
        have : ∃ i, dot (a i) x = b i ∧ ¬ dot (a i) y ≤ b i := by
          by_contra hcon
          push Not at hcon
          exact hy fun i hi => hcon i hi
        obtain ⟨i, hi, hi'⟩ := this
        refine Finset.prod_eq_zero (Finset.mem_univ i) ?_
        unfold tcs
        rw [if_neg (by rw [hi]; exact lt_irrefl _), if_pos hi]
        exact if_neg hi'
    · rw [if_neg hP]
      have : ∃ i, ¬ dot (a i) x ≤ b i := by
        by_contra hcon
        push Not at hcon
        exact hP hcon
      obtain ⟨i, hi⟩ := this
      refine Finset.prod_eq_zero (Finset.mem_univ i) ?_
      unfold tcs
      rw [if_neg (fun h => hi h.le), if_neg (fun h => hi h.le)]
  have hsum : ∀ y, ∑ v ∈ verts, ind (TCone a b v) y = ∑ x ∈ X, tcInd a b x Finset.univ y := by
    intro y
    rw [← Finset.sum_subset (Finset.subset_union_left : verts ⊆ X) (fun x hx hn => by
      rw [htc, if_neg fun hP => hn (hmem x hx hP)])]
    refine Finset.sum_congr rfl fun x hx => ?_
    rw [htc, if_pos ((hv x).1 hx).1]
  have hP : ∀ y, ind (Poly a b) y = hsInd a b Finset.univ y := by
    intro y
    rw [hsInd_eq]
    unfold ind Poly
    simp
  have e : (fun y => ind (Poly a b) y - ∑ v ∈ verts, ind (TCone a b v) y) =
      ∑ T, c T • (hsInd a b T - ∑ x ∈ X, tcInd a b x T) := by
    funext y
    rw [hP, hsum, hrel, Finset.sum_congr rfl fun x _ => tcInd_relation a b Finset.univ c hrel x y, Finset.sum_comm]
    simp only [Finset.sum_apply, Pi.smul_apply, Pi.sub_apply, smul_eq_mul, mul_sub, Finset.sum_sub_distrib, Finset.mul_sum]
  rw [e]
  refine Submodule.sum_mem _ fun T _ => ?_
  by_cases hcT : c T = 0
  · rw [hcT, zero_smul]; exact Submodule.zero_mem _
  apply Submodule.smul_mem
  rcases hc T hcT with h | h
  · exact Submodule.sub_mem _ (hsInd_lined a b T h) (Submodule.sum_mem _ fun x _ => tcInd_lined a b x T h)
  · have hin : apex T ∈ X := Finset.mem_union_right _ (Finset.mem_image.2 ⟨T, Finset.mem_filter.2 ⟨Finset.mem_univ _, h⟩, rfl⟩)
    rw [← Finset.add_sum_erase _ _ hin, tcInd_apex a b _ T (hapex T h), sub_add_cancel_left]
    apply Submodule.neg_mem
    refine Submodule.sum_mem _ fun x hx => ?_
    have hne := (Finset.mem_erase.1 hx).1
    have : ∃ i ∈ T, dot (a i) x ≠ b i := by
      by_contra hcon
      push Not at hcon
      apply hne
      have := h.2 (x - apex T) fun i hi => by
        have h1 : dot (a i) x = dot (a i) (apex T) + dot (a i) (x - apex T) := by rw [← dot_add', add_sub_cancel]
        rw [hcon i hi, hapex T h i hi] at h1
        linarith
      exact sub_eq_zero.1 this
    obtain ⟨i, hi, hi'⟩ := this
    exact tcInd_off a b x T h.1 i hi hi'

end Verif.Brion
