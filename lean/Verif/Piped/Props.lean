import Verif.Piped.Lemmas
import Verif.Barvinok.Primitive
import Mathlib.Order.Interval.Finset.Basic
import Mathlib.Data.Int.Interval
import Mathlib.Data.List.GetD
import Mathlib.Algebra.BigOperators.Field

/-!
# Lattice points of the fundamental parallelepiped: the property (C13)
-/

namespace Verif.Piped

open Verif.Barvinok (Mat Vec)
open Matrix

variable {m : ℕ}

/-- **Specification.** The half-open fundamental parallelepiped of the cone with apex `v` and the rows
of `A` as rays: the integer points `p = v + ∑ aᵢ Aᵢ` with `0 ≤ aᵢ < 1`. -/
def InPiped {n : ℕ} (A : Matrix (Fin n) (Fin n) ℤ) (v : Fin n → ℚ) (p : Fin n → ℤ) : Prop :=
  ∃ a : Fin n → ℚ, (∀ i, 0 ≤ a i ∧ a i < 1) ∧ ∀ k, (p k : ℚ) = v k + ∑ i, a i * (A i k : ℚ)

/-- The vertex of the cone. -/
def Input.vertex (C : Input m) : Fin (m + 1) → ℚ := fun k => (C.vScaled k : ℚ) / C.vScale

theorem floor_fdiv (a s : ℤ) (hs : s ≠ 0) : ⌊(a : ℚ) / s⌋ = a.fdiv s := by
  rcases lt_or_gt_of_ne hs with h | h
  · have : (a : ℚ) / s = ((-a : ℤ) : ℚ) / ((-s : ℤ) : ℚ) := by push_cast; rw [neg_div_neg_eq]
    rw [this, ← Int.neg_fdiv_neg, Int.fdiv_eq_ediv_of_nonneg _ (by omega)]
    obtain ⟨t, ht⟩ := Int.eq_ofNat_of_zero_le (show (0 : ℤ) ≤ -s by omega)
    rw [ht]
    exact_mod_cast Rat.floor_intCast_div_natCast (-a) t
  · rw [Int.fdiv_eq_ediv_of_nonneg _ h.le]
    obtain ⟨t, rfl⟩ := Int.eq_ofNat_of_zero_le h.le
    exact_mod_cast Rat.floor_intCast_div_natCast a t

/-- The parallelepiped in facet terms. -/
theorem inPiped_iff {C : Input m} (hC : Good C) (b : Vec (m + 1) × Mat (m + 1))
    (p : Vec (m + 1)) : InPiped C.rays C.vertex p ↔ InBox C (mkGen C b).beta p := by
  -- facet values of the vertex
  have hbeta : ∀ i, (mkGen C b).beta i = ⌊∑ k, (C.facets i k : ℚ) * C.vertex k⌋ := by
    intro i
    show (∑ k, C.vScaled k * C.facets i k).fdiv C.vScale = _
    rw [← floor_fdiv _ _ hC.scale]
    congr 1
    push_cast
    rw [Finset.sum_div]
    exact Finset.sum_congr rfl fun k _ => by unfold Input.vertex; ring
  have hdual : ∀ i j, ∑ k, (C.rays i k : ℚ) * (C.facets j k : ℚ) =
      if i = j then -(C.facetDivisors j : ℚ) else 0 := by
    intro i j
    have := hC.dual i j
    have h2 : ((∑ k, C.rays i k * C.facets j k : ℤ) : ℚ) =
        ((if i = j then -C.facetDivisors j else 0 : ℤ) : ℚ) := by rw [this]
    push_cast at h2
    exact h2
  have hfc : ∀ (a : Fin (m + 1) → ℚ) j,
      ∑ k, (C.facets j k : ℚ) * ∑ i, a i * (C.rays i k : ℚ) = -(C.facetDivisors j * a j) := by
    intro a j
    have h : ∑ k, (C.facets j k : ℚ) * ∑ i, a i * (C.rays i k : ℚ) =
        ∑ i, a i * ∑ k, (C.rays i k : ℚ) * (C.facets j k : ℚ) := by
      simp only [Finset.mul_sum]
      rw [Finset.sum_comm]
      exact Finset.sum_congr rfl fun i _ => Finset.sum_congr rfl fun k _ => by ring
    rw [h]
    simp only [hdual]
    rw [Finset.sum_eq_single j]
    · simp; ring
    · intro i _ hij; simp [hij]
    · simp
  constructor
  · rintro ⟨a, ha, hp⟩ i
    have h1 : ((∑ k, C.facets i k * p k : ℤ) : ℚ) =
        ∑ k, (C.facets i k : ℚ) * C.vertex k - C.facetDivisors i * a i := by
      push_cast
      simp only [hp, mul_add, Finset.sum_add_distrib, hfc]
      ring
    have hd : (0 : ℚ) < C.facetDivisors i := by exact_mod_cast hC.pos i
    rw [hbeta]
    constructor
    · have : (⌊∑ k, (C.facets i k : ℚ) * C.vertex k⌋) <
          ∑ k, C.facets i k * p k + C.facetDivisors i := by
        rw [Int.floor_lt]
        rw [Int.cast_add, h1]
        have := mul_lt_mul_of_pos_left (ha i).2 hd
        linarith
      linarith
    · rw [Int.le_floor, h1]
      have := mul_nonneg hd.le (ha i).1
      linarith
  · intro h
    have hd : ∀ i, (0 : ℚ) < C.facetDivisors i := fun i => by exact_mod_cast hC.pos i
    set x : Fin (m + 1) → ℚ := fun i =>
      (∑ k, (C.facets i k : ℚ) * C.vertex k - ((∑ k, C.facets i k * p k : ℤ) : ℚ)) with hx
    refine ⟨fun i => x i / C.facetDivisors i, fun i => ⟨?_, ?_⟩, ?_⟩
    · have := (h i).2
      rw [hbeta, Int.le_floor] at this
      exact div_nonneg (by simp only [hx]; linarith) (hd i).le
    · rw [div_lt_one (hd i)]
      have h2 := (h i).1
      rw [hbeta] at h2
      have : ⌊∑ k, (C.facets i k : ℚ) * C.vertex k⌋ < ∑ k, C.facets i k * p k + C.facetDivisors i := by
        linarith
      rw [Int.floor_lt, Int.cast_add] at this
      simp only [hx]
      linarith
    · -- both sides have the same facet values
      have hF : IsUnit (C.facets.map (Int.castRingHom ℚ)).det := by
        have : (C.facets.map (Int.castRingHom ℚ)).det = (C.facets.det : ℚ) := by
          rw [← RingHom.mapMatrix_apply, ← RingHom.map_det]; rfl
        rw [this]
        exact isUnit_iff_ne_zero.mpr (by exact_mod_cast facets_det_ne hC)
      set y : Fin (m + 1) → ℚ := fun k => (p k : ℚ) -
        (C.vertex k + ∑ i, x i / C.facetDivisors i * (C.rays i k : ℚ)) with hy
      have h0 : (C.facets.map (Int.castRingHom ℚ)) *ᵥ y = 0 := by
        ext i
        simp only [mulVec, dotProduct, map_apply, Pi.zero_apply, hy]
        simp only [mul_sub, mul_add, Finset.sum_sub_distrib, Finset.sum_add_distrib]
        have e1 := hfc (fun i => x i / C.facetDivisors i) i
        simp only [eq_intCast]
        rw [e1, mul_div_cancel₀ _ (hd i).ne']
        simp only [hx]
        push_cast
        ring
      have := eq_zero_of_mulVec_eq_zero hF.ne_zero h0
      intro k
      have := congrFun this k
      simp only [hy, Pi.zero_apply] at this
      linarith

/-- The number of tuples in a box. -/
theorem box_length (b : Vec (m + 1)) (hb : ∀ j, 0 < b j) (L : List (List ℕ)) (hL : L.Nodup)
    (hmem : ∀ x : List ℕ, x ∈ L ↔ x.length = m + 1 ∧ ∀ i (hi : i < x.length),
      x[i] < if h : i < m + 1 then (b ⟨i, h⟩).toNat else 0) :
    (L.length : ℤ) = ∏ j, b j ∧
    ((L.map (toMult (m := m))).Nodup ∧ ∀ n : Vec (m + 1), n ∈ L.map (toMult (m := m)) ↔
      ∀ j, 0 ≤ n j ∧ n j < b j) := by
  have hinj : ∀ x ∈ L, ∀ y ∈ L, (toMult x : Vec (m + 1)) = toMult y → x = y := by
    intro x hx y hy hxy
    have h1 := ((hmem x).mp hx).1
    have h2 := ((hmem y).mp hy).1
    apply List.ext_getElem (by omega)
    intro i hi1 hi2
    have := congrFun hxy ⟨i, by omega⟩
    simp only [toMult] at this
    rw [List.getD_eq_getElem _ _ hi1, List.getD_eq_getElem _ _ hi2] at this
    exact_mod_cast this
  have hnd : (L.map (toMult (m := m))).Nodup :=
    List.Nodup.map_on (fun x hx y hy h => hinj x hx y hy h) hL
  have hm : ∀ n : Vec (m + 1), n ∈ L.map (toMult (m := m)) ↔ ∀ j, 0 ≤ n j ∧ n j < b j := by
    intro n
    rw [List.mem_map]
    constructor
    · rintro ⟨x, hx, rfl⟩ j
      obtain ⟨h1, h2⟩ := (hmem x).mp hx
      have h3 := h2 j (by omega)
      rw [dif_pos j.isLt] at h3
      simp only [toMult]
      rw [List.getD_eq_getElem _ _ (by omega)]
      have := hb j
      simp only [Fin.eta] at h3
      omega
    · intro h
      refine ⟨(List.finRange (m + 1)).map fun j => (n j).toNat, (hmem _).mpr ⟨by simp, ?_⟩, ?_⟩
      · intro i hi
        have hi' : i < m + 1 := by simpa using hi
        rw [dif_pos hi']
        simp only [List.getElem_map, List.getElem_finRange]
        have := h ⟨i, hi'⟩
        have e : Fin.cast (by simp) (⟨i, by simpa using hi'⟩ : Fin (List.finRange (m + 1)).length) =
          (⟨i, hi'⟩ : Fin (m + 1)) := rfl
        rw [e]
        omega
      · ext j
        simp only [toMult]
        rw [List.getD_eq_getElem _ _ (by simp; omega)]
        simp only [List.getElem_map, List.getElem_finRange]
        have := h j
        have e : Fin.cast (by simp) (⟨j.val, by simp; omega⟩ : Fin (List.finRange (m + 1)).length) = j := rfl
        rw [e]
        omega
  refine ⟨?_, hnd, hm⟩
  have hcard : (L.map (toMult (m := m))).toFinset =
      Fintype.piFinset fun j => Finset.Ico (0 : ℤ) (b j) := by
    ext n
    rw [List.mem_toFinset, hm, Fintype.mem_piFinset]
    simp only [Finset.mem_Ico]
  have h1 := List.toFinset_card_of_nodup hnd
  rw [hcard, Fintype.card_piFinset, List.length_map] at h1
  rw [← h1]
  push_cast
  refine Finset.prod_congr rfl fun j _ => ?_
  rw [Int.card_Ico]
  have := hb j
  omega

/-- What both enumerations share: the tuples, their number, and the points. -/
theorem run_spec (X : Smith.Xgcd) {C : Input m} (hC : Good C)
    (hsmall : |C.determinant| ≤ intMax) :
    ∃ (b : Vec (m + 1) × Mat (m + 1)) (u : ℕ → ℕ) (L : List (List ℕ)), basis X C = some b ∧ maxInt (mkGen C b) = some u ∧
      (L.length : ℤ) = |C.determinant| ∧
      (∀ k, Latte.Enum.answers (Latte.Enum.decrementUpperBound (Latte.Enum.create u (m + 1))) k =
        some L[k]?) ∧
      (L.map fun x => generatePoint C (mkGen C b) (toMult x)).Nodup ∧
      ∀ p, p ∈ (L.map fun x => generatePoint C (mkGen C b) (toMult x)) ↔
        InPiped C.rays C.vertex p := by
  obtain ⟨b, hb, hpos, hprod, hcos⟩ := basis_spec X hC
  have hle : ∀ i, b.1 i ≤ intMax := by
    intro i
    refine le_trans ?_ hsmall
    rw [← hprod]
    refine Int.le_of_dvd (Finset.prod_pos fun j _ => hpos j) ?_
    exact Finset.dvd_prod_of_mem _ (Finset.mem_univ i)
  set u : ℕ → ℕ := fun i => if h : i < m + 1 then (b.1 ⟨i, h⟩).toNat else 0 with hu
  have hmax : maxInt (mkGen C b) = some u := by
    unfold maxInt
    rw [if_pos (show ∀ i, (mkGen C b).maxMultipliers i ≤ intMax from hle)]
    rfl
  obtain ⟨L, hL, hmem, hans⟩ := Latte.Enum.c12_box_enumeration (m + 1) (by omega) u (by
    intro i hi
    simp only [hu, dif_pos hi]
    have := hpos ⟨i, hi⟩
    omega)
  obtain ⟨hlen, hnd, hm⟩ := box_length b.1 hpos L hL hmem
  refine ⟨b, u, L, hb, hmax, hlen.trans hprod, hans, ?_, ?_⟩
  · -- distinct tuples give distinct points
    have : L.map (fun x => generatePoint C (mkGen C b) (toMult x)) =
        (L.map (toMult (m := m))).map (generatePoint C (mkGen C b)) := by
      rw [List.map_map]; rfl
    rw [this]
    refine List.Nodup.map_on (fun n hn n' hn' h => ?_) hnd
    obtain ⟨-, -, k, hk⟩ := generatePoint_spec hC b n
    obtain ⟨-, -, k', hk'⟩ := generatePoint_spec hC b n'
    exact (hcos (generatePoint C (mkGen C b) n)).unique ⟨(hm n).mp hn, k, hk⟩
      ⟨(hm n').mp hn', k', h ▸ hk'⟩
  · intro p
    rw [inPiped_iff hC b p]
    have : L.map (fun x => generatePoint C (mkGen C b) (toMult x)) =
        (L.map (toMult (m := m))).map (generatePoint C (mkGen C b)) := by
      rw [List.map_map]; rfl
    rw [this, List.mem_map]
    constructor
    · rintro ⟨n, -, rfl⟩
      exact (generatePoint_spec hC b n).2.1
    · intro hp
      obtain ⟨n, ⟨hn, k, hk⟩, -⟩ := hcos p
      refine ⟨n, (hm n).mpr hn, ?_⟩
      obtain ⟨-, hbox, k', hk'⟩ := generatePoint_spec hC b n
      apply inBox_unique hC _ _ _ (k' - k) hbox hp
      rw [hk', hk, mulVec_sub]
      abel

/-- **C13.** For every simplicial cone (any dimension, any linearly independent integer rays, any
rational vertex) whose index fits in an `int`, the enumeration ends (after at most `|det| + 1`
requests), and the list contains exactly the integer points of the half-open parallelepiped, each
once; their number is `|det|`. -/
theorem c13_points_exact (X : Smith.Xgcd) (C : Input m) (hC : Good C)
    (hsmall : |C.determinant| ≤ intMax) (fuel : ℕ) (hfuel : |C.rays.det| < fuel) :
    ∃ pts, points X C fuel = .ok pts ∧ pts.Nodup ∧ (pts.length : ℤ) = |C.rays.det| ∧
      ∀ p, p ∈ pts ↔ InPiped C.rays C.vertex p := by
  obtain ⟨b, u, L, hb, hmax, hlen, hans, hnd, hm⟩ := run_spec X hC hsmall
  refine ⟨(L.map fun x => generatePoint C (mkGen C b) (toMult x)).reverse, ?_, ?_, ?_, ?_⟩
  · unfold points
    simp only [hb, hmax]
    rw [loop_ok _ (fun x => generatePoint C (mkGen C b) (toMult x)) L (fun _ _ => rfl) _ hans fuel
      (by rw [hC.det] at hlen; exact_mod_cast hlen ▸ hfuel), List.append_nil]
  · exact List.nodup_reverse.mpr hnd
  · simp [hlen, hC.det]
  · intro p; rw [List.mem_reverse]; exact hm p

/-- **C13, scalar products.** The array of scalar products computed without listing the points holds
the products of the generic vector with the same points, in the order of generation; no array bound
is exceeded and no assertion fails. -/
theorem c13_scalar_products (X : Smith.Xgcd) (C : Input m) (hC : Good C)
    (hsmall : |C.determinant| ≤ intMax) (generic : Vec (m + 1)) (fuel : ℕ)
    (hfuel : |C.rays.det| < fuel) :
    ∃ pts, points X C fuel = .ok pts ∧
      scalarProducts X C generic fuel =
        .ok (pts.reverse.map fun p => ∑ k, generic k * p k) := by
  obtain ⟨b, u, L, hb, hmax, hlen, hans, hnd, hm⟩ := run_spec X hC hsmall
  have hfu : L.length < fuel := by rw [hC.det] at hlen; exact_mod_cast hlen ▸ hfuel
  refine ⟨(L.map fun x => generatePoint C (mkGen C b) (toMult x)).reverse, ?_, ?_⟩
  · unfold points
    simp only [hb, hmax]
    rw [loop_ok _ (fun x => generatePoint C (mkGen C b) (toMult x)) L (fun _ _ => rfl) _ hans fuel
      hfu, List.append_nil]
  · have hD : |C.determinant| ≠ 0 := by
      rw [hC.det]; exact abs_ne_zero.mpr hC.ne
    have hf : ∀ x ∈ L, generateScalarProduct C (mkGen C b) generic (toMult x) =
        some (∑ k, generic k * generatePoint C (mkGen C b) (toMult x) k) := by
      intro x _
      obtain ⟨h1, -, -⟩ := generatePoint_spec hC b (toMult x)
      have e : ∑ i, scaledMultiplier C (mkGen C b) (toMult x) i *
          ((mkGen C b).scaleFactors i * ∑ k, generic k * C.rays i k) =
          |C.determinant| * ∑ k, generic k * generatePoint C (mkGen C b) (toMult x) k := by
        calc _ = ∑ k, generic k * ∑ i, scaledMultiplier C (mkGen C b) (toMult x) i *
              (mkGen C b).scaleFactors i * C.rays i k := by
              simp only [Finset.mul_sum]
              rw [Finset.sum_comm]
              exact Finset.sum_congr rfl fun _ _ => Finset.sum_congr rfl fun _ _ => by ring
          _ = _ := by
              simp only [h1, Finset.mul_sum]
              exact Finset.sum_congr rfl fun _ _ => by ring
      unfold generateScalarProduct
      simp only
      rw [e]
      have hc : (mkGen C b).common = |C.determinant| := rfl
      rw [hc, if_pos (Int.mul_emod_right _ _), Int.mul_ediv_cancel_left _ hD]
    unfold scalarProducts
    rw [if_neg (not_lt.mpr hsmall)]
    simp only [hb, hmax]
    rw [loop_ok _ (fun x => ∑ k, generic k * generatePoint C (mkGen C b) (toMult x) k) L hf _ hans
      fuel hfu, List.append_nil]
    simp only [List.length_reverse, List.length_map]
    rw [if_pos hlen.le]
    simp only [List.reverse_reverse, List.map_map]
    rfl

/-- The facet data computed for any non-singular cone (C15) meets the assumption of C13. -/
theorem c13_applies (C : Barvinok.Cone (m + 1)) (hf : C.facets = none) (hd : C.rays.det ≠ 0)
    (vs : Vec (m + 1)) (s : ℤ) (hs : s ≠ 0) :
    ∃ D F, Barvinok.computeDetAndFacets C = some D ∧ D.facets = some F ∧
      Good ⟨D.rays, F, D.facetDivisors, D.determinant, vs, s⟩ := by
  obtain ⟨F, d, h, hpos, hdual, -, hdvd⟩ := Barvinok.computeDetAndFacets_some C hf hd
  exact ⟨_, F, h, rfl, ⟨rfl, hd, hdual, hpos, hdvd, hs⟩⟩

/-- Every cone delivered by the decomposition of a cone with primitive rays, in primal and in dual
mode, meets the assumption of C13. -/
theorem c13_applies_delivered (P : Barvinok.Params (m + 1)) (hP : P.ntl.Ok)
    (C : Barvinok.Cone (m + 1)) (hC : Barvinok.Wf C) (hprim : ∀ i, Barvinok.Prim (C.rays i))
    (depth : ℕ) (out : List (Barvinok.Cone (m + 1))) (md : ℕ)
    {ok : Bool} {out' : List (Barvinok.Cone (m + 1))} {md' : ℕ}
    (h : Barvinok.dfs P C depth out md = .done ok out' md')
    (vs : Vec (m + 1)) (s : ℤ) (hs : s ≠ 0) :
    ∃ new, out' = out ++ new ∧ ∀ D ∈ new, ∃ F, D.facets = some F ∧
      Good ⟨D.rays, F, D.facetDivisors, D.determinant, vs, s⟩ := by
  have h1 := Barvinok.dfs_inv P hP _ C rfl hC depth out md
  have h2 := Barvinok.dfs_prim P hP _ C rfl hC hprim depth out md
  rw [h] at h1 h2
  obtain ⟨new, e1, hD, -, -⟩ := h1
  obtain ⟨new', e2, hp⟩ := h2
  have : new' = new := by rw [e1] at e2; exact (List.append_cancel_left e2).symm
  subst this
  refine ⟨new', e1, fun D hmem => ?_⟩
  have hdel := hD D hmem
  obtain ⟨F, hF, -, hFd, hdual⟩ := hdel.facets
  refine ⟨F, hF, hdel.det_eq, by rw [← hdel.det_eq]; exact hdel.det_ne, hdual, hdel.div_pos, ?_, hs⟩
  intro j
  have hpw := hp D hmem
  unfold Barvinok.workRays at hpw
  show D.facetDivisors j ∣ D.determinant
  rw [hdel.det_eq]
  cases hm : P.mode with
  | dual =>
    rw [hm] at hpw
    simp only [hF, Option.getD_some] at hpw
    exact Barvinok.div_dvd_of_prim D.rays F D.facetDivisors hdual hpw j
  | primal =>
    rw [← hdel.det_eq]
    exact hdel.div_dvd hm j

/-- A non-trivial case: the cone with rays (1,0), (1,3) at the vertex (1/2, 1/3). -/
example : Good (⟨!![1, 0; 1, 3], !![-3, 1; 0, -1], ![3, 3], 3, ![3, 2], 6⟩ : Input 1) := by
  refine ⟨by decide +kernel, by decide +kernel, by decide +kernel, by decide +kernel, by decide +kernel, by decide⟩

/-- An index beyond `INT_MAX` in a single invariant factor stops the program. -/
theorem c13_too_large (X : Smith.Xgcd) (C : Input m) (b : Vec (m + 1) × Mat (m + 1))
    (hb : basis X C = some b) (i : Fin (m + 1)) (hi : intMax < b.1 i) (fuel : ℕ) :
    points X C fuel = .abort := by
  unfold points
  simp only [hb]
  have : maxInt (mkGen C b) = none := by
    unfold maxInt
    rw [if_neg]
    intro h
    exact absurd (h i) (not_le.mpr hi)
  rw [this]

end Verif.Piped
