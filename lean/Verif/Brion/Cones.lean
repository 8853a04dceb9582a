import Verif.Brion.Duality
import Verif.Brion.Vertices
import Verif.Barvinok.Generic
import Mathlib.LinearAlgebra.Matrix.NonsingularInverse
import Mathlib.LinearAlgebra.Matrix.ToLin

/-!
# Triangulations of normal cones

Purely mathematical.  A triangulation of the cone generated by some vectors gives, by taking polars, the polar of that
cone up to functions constant along lines.
-/

namespace Verif.Brion

open Verif.Barvinok Verif.Barvinok.Spec Matrix Filter Topology

variable {n N : ℕ}

/-- **Specification.** The simplicial cones spanned by the rows of the matrices `T` triangulate the set `K`: they cover it,
stay in it, and their interiors do not meet. -/
structure Triangulation (T : List (Mat n)) (K : Set (Fin n → ℝ)) : Prop where
  simplicial : ∀ B ∈ T, B.det ≠ 0
  covers : ∀ p, p ∈ K ↔ ∃ B ∈ T, p ∈ cone B
  disjoint : T.Pairwise fun B B' => interior (cone B) ∩ interior (cone B') = ∅

/-- **Specification.** The cone generated by the rows `a i` with `i ∈ J`. -/
def coneOf (a : Fin N → Vec n) (J : Set (Fin N)) : Set (Fin n → ℝ) :=
  {x | ∃ c : Fin N → ℝ, (∀ i, 0 ≤ c i) ∧ (∀ i, i ∉ J → c i = 0) ∧ ∀ k, x k = ∑ i, c i * (a i k : ℝ)}

/-! ### Farkas' lemma -/

theorem farkas {K V ι : Type} [Field K] [LinearOrder K] [IsStrictOrderedRing K] [AddCommGroup V] [Module K V] [DecidableEq ι] (J : Finset ι) : ∀ (a : ι → V →ₗ[K] K) (b : V →ₗ[K] K),
    (∀ x, (∀ i ∈ J, a i x ≤ 0) → b x ≤ 0) → ∃ c : ι → K, (∀ i, 0 ≤ c i) ∧ b = ∑ i ∈ J, c i • a i := by
  induction J using Finset.induction_on with
  | empty =>
    intro a b h
    refine ⟨0, fun i => le_rfl, LinearMap.ext fun x => ?_⟩
    have h1 := h x (by simp)
    have h2 := h (-x) (by simp)
    rw [map_neg] at h2
    simp only [Finset.sum_empty, LinearMap.zero_apply]
    linarith
  | insert j J hj ih =>
    intro a b h
    by_cases hb : ∀ x, (∀ i ∈ J, a i x ≤ 0) → b x ≤ 0
    · obtain ⟨c, hc, e⟩ := ih a b hb
      refine ⟨fun i => if i = j then 0 else c i, fun i => ?_, ?_⟩
      · show (0 : K) ≤ if i = j then 0 else c i
        split_ifs
        · exact le_rfl
        · exact hc i
      · rw [Finset.sum_insert hj, show (fun i => if i = j then 0 else c i) j = (0 : K) from if_pos rfl, zero_smul, zero_add, e]
        refine Finset.sum_congr rfl fun i hi => ?_
        show _ = (if i = j then (0 : K) else c i) • a i
        rw [if_neg (by rintro rfl; exact hj hi)]
    · push Not at hb
      obtain ⟨x0, hx0, hbx⟩ := hb
      have hjx : 0 < a j x0 := by
        by_contra hc
        refine absurd (h x0 fun i hi => ?_) (not_le.2 hbx)
        rcases Finset.mem_insert.1 hi with rfl | hi
        · exact not_lt.1 hc
        · exact hx0 i hi
      set r : K := (a j x0)⁻¹ with hr
      have hr0 : 0 < r := inv_pos.2 hjx
      obtain ⟨c, hc, e⟩ := ih (fun i => a i - (r * a i x0) • a j) (b - (r * b x0) • a j) (by
        intro x hx
        have hx' : ∀ i ∈ insert j J, a i (x - (r * a j x) • x0) ≤ 0 := by
          intro i hi
          rcases Finset.mem_insert.1 hi with rfl | hi
          · rw [map_sub, map_smul, smul_eq_mul, hr]
            field_simp
            simp
          · have := hx i hi
            simp only [LinearMap.sub_apply, LinearMap.smul_apply, smul_eq_mul, map_sub, map_smul] at this ⊢
            linarith [this, mul_comm (r * a i x0) (a j x), mul_comm (a i x0) (r * a j x)]
        have := h _ hx'
        simp only [LinearMap.sub_apply, LinearMap.smul_apply, smul_eq_mul, map_sub, map_smul] at this ⊢
        linarith [mul_comm (r * b x0) (a j x), mul_comm (b x0) (r * a j x)])
      have hsum : ∑ i ∈ J, c i * a i x0 ≤ 0 :=
        Finset.sum_nonpos fun i hi => mul_nonpos_of_nonneg_of_nonpos (hc i) (hx0 i hi)
      refine ⟨fun i => if i = j then r * (b x0 - ∑ i ∈ J, c i * a i x0) else c i, fun i => ?_, ?_⟩
      · show (0 : K) ≤ if i = j then r * (b x0 - ∑ i ∈ J, c i * a i x0) else c i
        split_ifs
        · exact mul_nonneg hr0.le (by linarith)
        · exact hc i
      · rw [Finset.sum_insert hj]
        show b = (if j = j then r * (b x0 - ∑ i ∈ J, c i * a i x0) else c j) • a j +
          ∑ i ∈ J, (if i = j then r * (b x0 - ∑ i ∈ J, c i * a i x0) else c i) • a i
        rw [if_pos rfl]
        have e1 : ∑ i ∈ J, (if i = j then r * (b x0 - ∑ i ∈ J, c i * a i x0) else c i) • a i = ∑ i ∈ J, c i • a i :=
          Finset.sum_congr rfl fun i hi => by rw [if_neg (by rintro rfl; exact hj hi)]
        rw [e1]
        refine LinearMap.ext fun x => ?_
        have := LinearMap.congr_fun e x
        simp only [LinearMap.sub_apply, LinearMap.smul_apply, smul_eq_mul, LinearMap.add_apply, LinearMap.sum_apply] at this ⊢
        have e2 : ∑ i ∈ J, c i * (a i x - r * a i x0 * a j x) = ∑ i ∈ J, c i * a i x - r * (∑ i ∈ J, c i * a i x0) * a j x := by
          rw [mul_assoc, Finset.sum_mul, Finset.mul_sum, ← Finset.sum_sub_distrib]
          exact Finset.sum_congr rfl fun i _ => by ring
        rw [e2] at this
        linarith

/-! ### Functionals and scalar products -/

/-- The functional `w ↦ w · y`. -/
def fun_ (y : Fin n → ℝ) : (Fin n → ℝ) →ₗ[ℝ] ℝ where
  toFun w := ∑ k, w k * y k
  map_add' w w' := by rw [← Finset.sum_add_distrib]; exact Finset.sum_congr rfl fun k _ => by rw [Pi.add_apply, add_mul]
  map_smul' t w := by
    rw [RingHom.id_apply, smul_eq_mul, Finset.mul_sum]
    exact Finset.sum_congr rfl fun k _ => by rw [Pi.smul_apply, smul_eq_mul, mul_assoc]

theorem fun_apply (y w : Fin n → ℝ) : fun_ y w = ∑ k, w k * y k := rfl

theorem fun_surj (f : (Fin n → ℝ) →ₗ[ℝ] ℝ) : ∃ y, f = fun_ y := by
  classical
  refine ⟨fun k => f (Pi.single k 1), LinearMap.ext fun w => ?_⟩
  rw [fun_apply]
  conv_lhs => rw [pi_eq_sum_univ' w, map_sum]
  refine Finset.sum_congr rfl fun k _ => ?_
  rw [map_smul, smul_eq_mul]

/-- The bipolar theorem for finitely generated cones. -/
theorem mem_coneOf_iff (a : Fin N → Vec n) (J : Set (Fin N)) (w : Fin n → ℝ) :
    w ∈ coneOf a J ↔ ∀ y : Fin n → ℝ, (∀ i ∈ J, dot (a i) y ≤ 0) → ∑ k, w k * y k ≤ 0 := by
  classical
  have hf : ∀ i y, fun_ (fun k => (a i k : ℝ)) y = dot (a i) y := by
    intro i y
    rw [fun_apply]
    exact Finset.sum_congr rfl fun k _ => mul_comm _ _
  constructor
  · rintro ⟨c, hc, h0, e⟩ y hy
    have : ∑ k, w k * y k = ∑ i, c i * dot (a i) y := by
      simp only [e, dot, Finset.mul_sum, Finset.sum_mul]
      rw [Finset.sum_comm]
      exact Finset.sum_congr rfl fun i _ => Finset.sum_congr rfl fun k _ => by ring
    rw [this]
    refine Finset.sum_nonpos fun i _ => ?_
    by_cases hi : i ∈ J
    · exact mul_nonpos_of_nonneg_of_nonpos (hc i) (hy i hi)
    · rw [h0 i hi, zero_mul]
  · intro h
    obtain ⟨c, hc, e⟩ := farkas (Finset.univ.filter (· ∈ J)) (fun i => fun_ fun k => (a i k : ℝ)) (fun_ w) (by
      intro y hy
      have := h y fun i hi => by rw [← hf]; exact hy i (by simpa using hi)
      rw [fun_apply]
      calc _ = ∑ k, w k * y k := Finset.sum_congr rfl fun k _ => mul_comm _ _
        _ ≤ 0 := this)
    refine ⟨fun i => if i ∈ J then c i else 0, fun i => ?_, fun i hi => if_neg hi, fun k => ?_⟩
    · show (0 : ℝ) ≤ if i ∈ J then c i else 0
      split_ifs
      · exact hc i
      · exact le_rfl
    · have := LinearMap.congr_fun e (Pi.single k 1)
      simp only [LinearMap.sum_apply, LinearMap.smul_apply, smul_eq_mul, fun_apply, Pi.single_apply, ite_mul, one_mul, zero_mul,
        Finset.sum_ite_eq', Finset.mem_univ, if_true] at this
      rw [this, Finset.sum_filter]
      refine Finset.sum_congr rfl fun i _ => ?_
      show _ = (if i ∈ J then c i else 0) * _
      by_cases hi : i ∈ J
      · rw [if_pos hi, if_pos hi]
      · rw [if_neg hi, if_neg hi, zero_mul]

/-! ### Simplicial cones given by matrices -/

theorem isUnit_real (B : Mat n) (hB : B.det ≠ 0) : IsUnit (B.map (Int.castRingHom ℝ)).det := by
  have : (B.map (Int.castRingHom ℝ)).det = (B.det : ℝ) := by
    rw [← RingHom.mapMatrix_apply, ← RingHom.map_det]
    rfl
  rw [this]
  exact isUnit_iff_ne_zero.mpr (by exact_mod_cast hB)

theorem comb_eq (B : Mat n) (c : Fin n → ℝ) : comb B c = c ᵥ* B.map (Int.castRingHom ℝ) := rfl

/-- The simplicial cone of the rows of a matrix. -/
noncomputable def simpOf (B : Mat n) (hB : B.det ≠ 0) : Simp n (Fin n → ℝ) where
  v k := fun j => (B k j : ℝ)
  co k := LinearMap.proj k ∘ₗ Matrix.vecMulLinear (B.map (Int.castRingHom ℝ))⁻¹
  sum_co w := by
    have h : comb B (w ᵥ* (B.map (Int.castRingHom ℝ))⁻¹) = w := by
      rw [comb_eq, vecMul_vecMul, nonsing_inv_mul _ (isUnit_real B hB), vecMul_one]
    funext j
    rw [Finset.sum_apply]
    exact congrFun h j
  co_v k l := by
    show ((fun j => (B l j : ℝ)) ᵥ* (B.map (Int.castRingHom ℝ))⁻¹) k = _
    have h : (fun j => (B l j : ℝ)) = (Pi.single l 1 : Fin n → ℝ) ᵥ* B.map (Int.castRingHom ℝ) := by
      rw [single_one_vecMul]
      rfl
    rw [h, vecMul_vecMul, mul_nonsing_inv _ (isUnit_real B hB), vecMul_one, Pi.single_apply]

theorem comb_co (B : Mat n) (hB : B.det ≠ 0) (w : Fin n → ℝ) : comb B (fun k => (simpOf B hB).co k w) = w := by
  have := (simpOf B hB).sum_co w
  conv_rhs => rw [← this]
  funext j
  rw [Finset.sum_apply]
  rfl

theorem mem_cone_co (B : Mat n) (hB : B.det ≠ 0) (w : Fin n → ℝ) : w ∈ cone B ↔ ∀ k, 0 ≤ (simpOf B hB).co k w := by
  constructor
  · rintro ⟨c, hc, e⟩ k
    have := coords_unique B hB _ c ((comb_co B hB w).trans e)
    rw [show (simpOf B hB).co k w = c k from congrFun this k]
    exact hc k
  · intro h
    exact ⟨_, h, (comb_co B hB w).symm⟩

theorem onFacetPlane_co (B : Mat n) (hB : B.det ≠ 0) (w : Fin n → ℝ) : OnFacetPlane B w ↔ ∃ k, (simpOf B hB).co k w = 0 := by
  constructor
  · rintro ⟨c, ⟨k, hk⟩, e⟩
    have := coords_unique B hB _ c ((comb_co B hB w).trans e)
    exact ⟨k, by rw [← hk]; exact congrFun this k⟩
  · rintro ⟨k, hk⟩
    exact ⟨_, ⟨k, hk⟩, (comb_co B hB w).symm⟩

theorem flip_zero (B : Mat n) (hB : B.det ≠ 0) (w : Fin n → ℝ) (h : ∀ k, (simpOf B hB).co k w ≠ 0) :
    flip (simpOf B hB) 0 w = ind (cone B) w := by
  unfold flip ind fl
  by_cases hc : w ∈ cone B
  · rw [if_pos hc]
    refine Finset.prod_eq_one fun k _ => ?_
    have := lt_of_le_of_ne ((mem_cone_co B hB w).1 hc k) (h k).symm
    rw [if_pos this, LinearMap.zero_apply, if_pos le_rfl]; ring
  · rw [if_neg hc]
    rw [mem_cone_co B hB] at hc
    push Not at hc
    obtain ⟨k, hk⟩ := hc
    refine Finset.prod_eq_zero (Finset.mem_univ k) ?_
    rw [if_neg (not_lt.2 hk.le), LinearMap.zero_apply, if_pos le_rfl]; ring

/-- The flipped polar is the polar up to functions constant along lines. -/
theorem flip_lines (B : Mat n) (hB : B.det ≠ 0) (w : Fin n → ℝ) :
    (fun y => flip (simpOf B hB) (fun_ y) w - ind (polar B) y) ∈ lineFn n := by
  classical
  set e : Fin n → ℤ := fun k => if 0 < (simpOf B hB).co k w then 0 else 1 with he
  have hfl : ∀ y : Fin n → ℝ, flip (simpOf B hB) (fun_ y) w = ∏ k, (half (B k) y + -e k) := by
    intro y
    unfold flip fl half
    refine Finset.prod_congr rfl fun k _ => ?_
    rw [sub_eq_add_neg]
    rfl
  have key : (fun y => flip (simpOf B hB) (fun_ y) w - ind (polar B) y) =
      ∑ J ∈ (Finset.univ : Finset (Finset (Fin n))).erase Finset.univ,
        fun y => (∏ k ∈ Finset.univ \ J, -e k) * ∏ j ∈ J, half (B j) y := by
    funext y
    rw [hfl y, ind_polar, Finset.prod_add, Finset.powerset_univ, ← Finset.add_sum_erase _ _ (Finset.mem_univ Finset.univ),
      Finset.sum_apply]
    rw [Finset.sdiff_self, Finset.prod_empty, mul_one, add_sub_cancel_left]
    exact Finset.sum_congr rfl fun J _ => mul_comm _ _
  rw [key]
  refine Submodule.sum_mem _ fun J hJ => ?_
  obtain ⟨i, hi⟩ : ∃ i, i ∉ J := by
    by_contra hc
    push Not at hc
    exact (Finset.mem_erase.1 hJ).1 (Finset.eq_univ_iff_forall.2 hc)
  exact prod_mem_lineFn B J i hi _

/-! ### The triangulation at points off the walls -/

theorem interior_of_off (B : Mat n) (hB : B.det ≠ 0) (p : Fin n → ℝ) (hp : ¬ OnFacetPlane B p) (h : p ∈ cone B) :
    p ∈ interior (cone B) := by
  rw [mem_interior_iff_mem_nhds]
  filter_upwards [ind_locally_constant B hB p hp] with q hq
  unfold ind at hq
  rw [if_pos h] at hq
  by_contra hc
  rw [if_neg hc] at hq
  exact absurd hq (by norm_num)

theorem Triangulation.count {T : List (Mat n)} {K : Set (Fin n → ℝ)} (h : Triangulation T K) (p : Fin n → ℝ)
    (hp : ∀ B ∈ T, ¬ OnFacetPlane B p) : (T.map fun B => ind (cone B) p).sum = ind K p := by
  classical
  have hpair : T.Pairwise fun B B' => p ∈ interior (cone B) → p ∉ interior (cone B') := by
    refine h.disjoint.imp fun {B B'} e h1 h2 => ?_
    have : p ∈ interior (cone B) ∩ interior (cone B') := ⟨h1, h2⟩
    rw [e] at this
    exact this
  have key : ∀ L : List (Mat n), (∀ B ∈ L, B.det ≠ 0) → (∀ B ∈ L, ¬ OnFacetPlane B p) →
      L.Pairwise (fun B B' => p ∈ interior (cone B) → p ∉ interior (cone B')) →
      (L.map fun B => ind (cone B) p).sum = if ∃ B ∈ L, p ∈ cone B then 1 else 0 := by
    intro L
    induction L with
    | nil => intro _ _ _; simp
    | cons B L ih =>
      intro h1 h2 h3
      rw [List.map_cons, List.sum_cons, ih (fun B' h => h1 B' (List.mem_cons_of_mem _ h)) (fun B' h => h2 B' (List.mem_cons_of_mem _ h))
        (List.pairwise_cons.1 h3).2]
      by_cases hc : p ∈ cone B
      · have hno : ¬ ∃ B' ∈ L, p ∈ cone B' := by
          rintro ⟨B', hB', hp'⟩
          have hm := List.mem_cons_of_mem B hB'
          exact (List.pairwise_cons.1 h3).1 B' hB' (interior_of_off B (h1 B List.mem_cons_self) p (h2 B List.mem_cons_self) hc)
            (interior_of_off B' (h1 B' hm) p (h2 B' hm) hp')
        rw [if_neg hno, if_pos ⟨B, List.mem_cons_self, hc⟩, add_zero]
        exact if_pos hc
      · have : (∃ B' ∈ B :: L, p ∈ cone B') ↔ ∃ B' ∈ L, p ∈ cone B' := by
          simp [hc]
        rw [show ind (cone B) p = 0 from if_neg hc, zero_add]
        simp only [this]
  rw [key T h.simplicial hp hpair]
  unfold ind
  simp only [← h.covers p]

/-! ### Polars of a triangulation -/

/-- If simplicial cones triangulate the cone generated by some vectors, then their polars add up to the polar of that cone,
up to functions constant along lines. -/
theorem polar_sum {m : ℕ} (a : Fin N → Vec (m + 1)) (J : Set (Fin N)) (T : List (Mat (m + 1))) (h : Triangulation T (coneOf a J)) :
    (fun y => (T.map fun B => ind (polar B) y).sum - ind {y | ∀ i ∈ J, dot (a i) y ≤ 0} y) ∈ lineFn (m + 1) := by
  classical
  let b : Fin T.length → Simp (m + 1) (Fin (m + 1) → ℝ) := fun i => simpOf T[i.1] (h.simplicial _ (List.getElem_mem i.2))
  let G : Finset ((Fin (m + 1) → ℝ) →ₗ[ℝ] ℝ) := Finset.univ.image fun ik : Fin T.length × Fin (m + 1) => (b ik.1).co ik.2
  let K : Set ((Fin (m + 1) → ℝ) →ₗ[ℝ] ℝ) := {y | ∀ i ∈ J, y (fun k => (a i k : ℝ)) ≤ 0}
  have hG : ∀ g ∈ G, g ≠ 0 := by
    intro g hg
    obtain ⟨ik, -, rfl⟩ := Finset.mem_image.1 hg
    exact co_ne_zero _ _
  have hGg : ∀ w, (∀ g ∈ G, g w ≠ 0) ↔ Gen b w := by
    intro w
    constructor
    · intro hw i k
      exact hw _ (Finset.mem_image.2 ⟨(i, k), Finset.mem_univ _, rfl⟩)
    · rintro hw g hg
      obtain ⟨ik, -, rfl⟩ := Finset.mem_image.1 hg
      exact hw _ _
  have hdot : ∀ (i : Fin N) (y : Fin (m + 1) → ℝ), fun_ y (fun k => (a i k : ℝ)) = dot (a i) y := fun i y => rfl
  have hdual : ∀ w, w ∈ dualOf K ↔ w ∈ coneOf a J := by
    intro w
    rw [mem_coneOf_iff]
    constructor
    · intro hw y hy
      exact hw (fun_ y) fun i hi => hy i hi
    · intro hw f hf
      obtain ⟨y, rfl⟩ := fun_surj f
      exact hw y fun i hi => hf i hi
  have hoff : ∀ w, Gen b w → ∀ B ∈ T, ¬ OnFacetPlane B w := by
    intro w hw B hB
    obtain ⟨i, hi, rfl⟩ := List.mem_iff_getElem.1 hB
    rw [onFacetPlane_co _ (h.simplicial _ hB)]
    rintro ⟨k, hk⟩
    exact hw ⟨i, hi⟩ k hk
  have htot : ∀ (y : (Fin (m + 1) → ℝ) →ₗ[ℝ] ℝ) w, total 1 b y w = ∑ i, flip (b i) y w := by
    intro y w
    unfold total
    exact Finset.sum_congr rfl fun i _ => one_mul _
  have hind : ∀ w, (∀ g ∈ G, g w ≠ 0) → total 1 b 0 w = if w ∈ dualOf K then 1 else 0 := by
    intro w hw
    rw [hGg] at hw
    rw [htot]
    have h1 : ∀ i, flip (b i) 0 w = ind (cone T[i.1]) w := fun i => flip_zero _ _ w (hw i)
    rw [Finset.sum_congr rfl fun i _ => h1 i, Fin.sum_univ_fun_getElem T fun B => ind (cone B) w, h.count w (hoff w hw)]
    unfold ind
    simp only [hdual]
  -- a generic point in the interior
  obtain ⟨w, hw, gw⟩ : ∃ w, w ∈ core (dualOf K) ∧ Gen b w := by
    have hne : T ≠ [] := by
      intro e
      have : (0 : Fin (m + 1) → ℝ) ∈ coneOf a J := ⟨0, by simp, by simp, by simp⟩
      obtain ⟨B, hB, -⟩ := (h.covers 0).1 this
      rw [e] at hB
      exact absurd hB List.not_mem_nil
    let i0 : Fin T.length := ⟨0, List.length_pos_iff.2 hne⟩
    set s0 : Fin (m + 1) → ℝ := ∑ l, (b i0).v l with hs0
    have hco : ∀ l, (b i0).co l s0 = 1 := by
      intro l
      rw [hs0, map_sum, Finset.sum_congr rfl fun j _ => (b i0).co_v l j]
      simp
    have hs : s0 ∈ core (dualOf K) := by
      intro q
      have hpos : ∀ᶠ ε in 𝓝[>] (0 : ℝ), ∀ l, 0 < (b i0).co l (s0 + ε • q) := by
        rw [eventually_all]
        intro l
        filter_upwards [ev_pos_iff ((b i0).co l s0) ((b i0).co l q) (by rw [hco]; norm_num)] with ε hε
        rw [map_add, map_smul, smul_eq_mul]
        exact hε.1.2 (by rw [hco]; norm_num)
      filter_upwards [hpos] with ε hε y hy
      rw [← (b i0).sum_co (s0 + ε • q), map_sum]
      refine Finset.sum_nonpos fun k _ => ?_
      rw [map_smul, smul_eq_mul]
      exact mul_nonpos_of_nonneg_of_nonpos (hε k).le (gen_mem_dual b K G hG hind i0 k y hy)
    obtain ⟨q, hq⟩ := near_gen b G hG s0
    obtain ⟨ε, e1, e2⟩ := (hq.and ((region_core K).opens s0 hs q)).exists
    exact ⟨_, e2, e1.1⟩
  have hmain : ∀ y : Fin (m + 1) → ℝ, ∑ i, flip (b i) (fun_ y) w = ind {y | ∀ i ∈ J, dot (a i) y ≤ 0} y := by
    intro y
    rw [← htot, dual_sum b K G hG hind {x | ∃ i ∈ J, x = fun k => (a i k : ℝ)} (by
      ext y
      constructor
      · rintro hy f ⟨i, hi, rfl⟩
        exact hy i hi
      · intro hy i hi
        exact hy _ ⟨i, hi, rfl⟩) w hw gw (fun_ y)]
    rfl
  have hfin : (fun y => (T.map fun B => ind (polar B) y).sum - ind {y | ∀ i ∈ J, dot (a i) y ≤ 0} y) =
      -∑ i, fun y => flip (b i) (fun_ y) w - ind (polar T[i.1]) y := by
    funext y
    rw [Pi.neg_apply, Finset.sum_apply, Finset.sum_sub_distrib, hmain, Fin.sum_univ_fun_getElem T fun B => ind (polar B) y]
    ring
  rw [hfin]
  exact Submodule.neg_mem _ (Submodule.sum_mem _ fun i _ => flip_lines _ _ w)

end Verif.Brion
