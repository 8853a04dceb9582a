import Verif.ExpSubst.Model
import Verif.ExpSubst.Genfun
import Verif.Todd.Props
import Verif.Piped.Props

/-!
# What one cone contributes
-/

namespace Verif.ExpSubst

open Verif.Barvinok (Cone Mat Vec rel)
open Verif.Barvinok.Spec
open PowerSeries Verif.Todd

/-- `inner` of the model is the scalar product. -/
theorem inner_eq {n : ℕ} (a b : Vec n) : inner a b = ip a b := rfl

/-- The denominators of a cone. -/
noncomputable def den {n : ℕ} (A : Mat n) : LP n := ∏ i, (1 - mono (A i))

/-- The series by which numerators are multiplied. -/
noncomputable def coneSeries {n : ℕ} (lam : Vec n) (A : Mat n) : PowerSeries ℚ :=
  C (1 / (∏ i, (ip lam (A i) : ℚ))) * ∏ i, rescale (ip lam (A i) : ℚ) toddSeries

theorem rescale_todd (y : ℚ) : (1 - rescale y (exp ℚ)) * rescale y toddSeries = C y * X := by
  have := congrArg (rescale y) toddSeries_spec
  rw [map_mul, map_sub, map_one, rescale_X] at this
  rw [← this, mul_comm]

theorem phi_den {n : ℕ} (lam : Vec n) (A : Mat n) (h : ∀ i, ip lam (A i) ≠ 0) :
    phi lam (den A) * coneSeries lam A = X ^ n := by
  unfold den coneSeries
  rw [map_prod]
  have h1 : ∀ i, phi lam (1 - mono (A i)) = 1 - rescale (ip lam (A i) : ℚ) (exp ℚ) := by
    intro i
    rw [map_sub, map_one, phi_mono]
  simp only [h1]
  have h2 : (∏ i, (1 - rescale (ip lam (A i) : ℚ) (exp ℚ))) *
      ∏ i, rescale (ip lam (A i) : ℚ) toddSeries = C (∏ i, (ip lam (A i) : ℚ)) * X ^ n := by
    rw [← Finset.prod_mul_distrib]
    simp only [rescale_todd]
    rw [Finset.prod_mul_distrib, map_prod]
    simp
  have h3 : (∏ i, (ip lam (A i) : ℚ)) ≠ 0 :=
    Finset.prod_ne_zero_iff.mpr fun i _ => by exact_mod_cast h i
  calc _ = C (1 / (∏ i, (ip lam (A i) : ℚ))) * ((∏ i, (1 - rescale (ip lam (A i) : ℚ) (exp ℚ))) *
      ∏ i, rescale (ip lam (A i) : ℚ) toddSeries) := by ring
    _ = C (1 / (∏ i, (ip lam (A i) : ℚ))) * (C (∏ i, (ip lam (A i) : ℚ)) * X ^ n) := by rw [h2]
    _ = X ^ n := by
      rw [← mul_assoc, ← map_mul, one_div_mul_cancel h3, map_one, one_mul]

theorem residueWeights_ok {n : ℕ} (lam : Vec n) (A : Mat n) (h : ∀ i, ip lam (A i) ≠ 0) :
    ∃ w P, residueWeights lam (List.ofFn fun i => A i) = .ok (w, P) ∧ w.length = n + 1 ∧
      ∀ k ≤ n, w.getD k 0 = coeff (n - k) (coneSeries lam A) / (k.factorial : ℚ) := by
  unfold residueWeights
  simp only
  rw [if_neg]
  · obtain ⟨l, h1, h2, h3⟩ := c19_evaluate_todd ((List.ofFn fun i => A i).map (inner lam)) toddSeries
      toddSeries_spec
    simp only [List.length_map, List.length_ofFn] at h2
    simp only [h1]
    refine ⟨_, _, rfl, by simp, fun k hk => ?_⟩
    rw [List.getD_eq_getElem _ _ (by simp; omega)]
    simp only [List.getElem_map, List.getElem_range, List.length_ofFn]
    rw [h3.getD (by omega)]
    unfold coneSeries
    rw [coeff_C_mul]
    have e1 : (((List.ofFn fun i => A i).map (inner lam)).map fun xi : ℤ => rescale (xi : ℚ) toddSeries).prod =
        ∏ i, rescale (ip lam (A i) : ℚ) toddSeries := by
      rw [List.map_map, List.map_ofFn, List.prod_ofFn]
      rfl
    have e2 : ((((List.ofFn fun i => A i).map (inner lam)).prod : ℤ) : ℚ) = ∏ i, (ip lam (A i) : ℚ) := by
      rw [List.map_ofFn, List.prod_ofFn]
      push_cast
      rfl
    rw [e1, e2]
    ring
  · intro h0
    rw [List.map_ofFn, List.mem_ofFn] at h0
    obtain ⟨i, hi⟩ := h0
    exact h i hi

theorem residueWeights_notGeneric {n : ℕ} (lam : Vec n) (A : Mat n) (i : Fin n)
    (h : ip lam (A i) = 0) : residueWeights lam (List.ofFn fun i => A i) = .error .notGeneric := by
  unfold residueWeights
  simp only
  rw [if_pos]
  rw [List.map_ofFn, List.mem_ofFn]
  exact ⟨i, h⟩

theorem addPowers_getD (p pw : ℤ) (l : List ℤ) (k : ℕ) (hk : k < l.length) :
    (addPowers p pw l).getD k 0 = l.getD k 0 + pw * p ^ k := by
  induction l generalizing pw k with
  | nil => simp at hk
  | cons s r ih =>
    cases k with
    | zero => simp [addPowers]
    | succ k =>
      simp only [addPowers, List.getD_cons_succ]
      rw [ih _ _ (by simpa using hk)]
      ring

theorem addPowers_length (p pw : ℤ) (l : List ℤ) : (addPowers p pw l).length = l.length := by
  induction l generalizing pw with
  | nil => rfl
  | cons s r ih => simp [addPowers, ih]

theorem sumsOfPowers_getD (d : ℕ) (l : List ℤ) (k : ℕ) (hk : k ≤ d) :
    (sumsOfPowers d l).getD k 0 = (l.map fun p => p ^ k).sum := by
  have key : ∀ (l : List ℤ) (acc : List ℤ), acc.length = d + 1 →
      (l.foldl (fun sum p => addPowers p 1 sum) acc).getD k 0 =
        acc.getD k 0 + (l.map fun p => p ^ k).sum := by
    intro l
    induction l with
    | nil => intro acc _; simp
    | cons p r ih =>
      intro acc hacc
      rw [List.foldl_cons, ih _ (by rw [addPowers_length, hacc]),
        addPowers_getD _ _ _ _ (by omega), List.map_cons, List.sum_cons]
      ring
  unfold sumsOfPowers
  rw [key l _ (by simp)]
  simp [List.getD_eq_getElem?_getD, show k < d + 1 by omega]

/-- The sum over `k` of power sums times weights is the coefficient of `t^n` of the product of the
numerator with the series of the cone. -/
theorem weighted_sum {n : ℕ} (lam : Vec n) (A : Mat n) (w : List ℚ) (hl : w.length = n + 1)
    (hw : ∀ k ≤ n, w.getD k 0 = coeff (n - k) (coneSeries lam A) / (k.factorial : ℚ))
    (pts : List (Vec n)) :
    ((List.range w.length).map fun k =>
      ((sumsOfPowers n (pts.map (ip lam))).getD k 0 : ℚ) * w.getD k 0).sum =
    coeff n (phi lam (gf pts) * coneSeries lam A) := by
  rw [coeff_mul, Finset.Nat.sum_antidiagonal_eq_sum_range_succ_mk, hl,
    ← List.sum_toFinset _ List.nodup_range, List.toFinset_range]
  refine Finset.sum_congr rfl fun k hk => ?_
  rw [Finset.mem_range] at hk
  rw [hw k (by omega), sumsOfPowers_getD _ _ _ (by omega), coeff_phi_gf, List.map_map]
  have : (((pts.map ((fun p => p ^ k) ∘ ip lam)).sum : ℤ) : ℚ) =
      (pts.map fun p => ((ip lam p : ℤ) : ℚ) ^ k).sum := by
    induction pts with
    | nil => rfl
    | cons a l ih => simp only [List.map_cons, List.sum_cons, Int.cast_add, ih]; simp
  rw [this]
  ring

/-! ## The scaled vertex -/

theorem vertexScale_ne {n : ℕ} (v : Fin n → ℚ) : vertexScale v ≠ 0 := by
  unfold vertexScale
  have : (Finset.univ.lcm fun k => (v k).den) ≠ 0 := by
    rw [Ne, Finset.lcm_eq_zero_iff]
    simp
  exact_mod_cast this

theorem vertexScaled_div {n : ℕ} (v : Fin n → ℚ) (k : Fin n) :
    (vertexScaled v k : ℚ) / vertexScale v = v k := by
  have h0 := vertexScale_ne v
  have h1 : ((v k).den : ℤ) ∣ vertexScale v := by
    unfold vertexScale
    exact_mod_cast Finset.dvd_lcm (Finset.mem_univ k)
  obtain ⟨c, hc⟩ := h1
  have hd : ((v k).den : ℤ) ≠ 0 := by exact_mod_cast (v k).den_ne_zero
  unfold vertexScaled
  have h2 : vertexScale v / ((v k).den : ℤ) = c := by
    rw [hc]; exact Int.mul_ediv_cancel_left _ hd
  rw [h2, hc]
  have hc0 : (c : ℚ) ≠ 0 := by
    intro h
    apply h0
    rw [hc]
    have : c = 0 := by exact_mod_cast h
    rw [this, mul_zero]
  have hd' : ((v k).den : ℚ) ≠ 0 := by exact_mod_cast (v k).den_ne_zero
  push_cast
  conv_rhs => rw [← Rat.num_div_den (v k)]
  field_simp

/-! ## The cone as a lattice point function -/

/-- Indicator of the shifted cone on lattice points. -/
noncomputable def coneInd {n : ℕ} (A : Mat n) (v : Fin n → ℚ) (z : Vec n) : ℚ :=
  (ind (cone A) (rel z v) : ℤ)

variable {m : ℕ}

/-- Coordinates of a lattice point relative to the vertex and the rays, read off from the facets. -/
def coord (C : Cone (m + 1)) (F : Mat (m + 1)) (j : Fin (m + 1)) (z : Vec (m + 1)) : ℚ :=
  (∑ k, (F j k : ℚ) * (C.vertex k - z k)) / C.facetDivisors j

theorem cone_iff_coord (C : Cone (m + 1)) (F : Mat (m + 1)) (hC : Piped.Good (pipedInput C F))
    (z : Vec (m + 1)) : rel z C.vertex ∈ cone C.rays ↔ ∀ j, 0 ≤ coord C F j z := by
  rw [Barvinok.mem_cone_iff C.rays F C.facetDivisors hC.ne hC.pos hC.dual]
  refine forall_congr' fun j => ?_
  have hd : (0 : ℚ) < C.facetDivisors j := by exact_mod_cast hC.pos j
  have h1 : dot (F j) (rel z C.vertex) =
      ((-(∑ k, (F j k : ℚ) * (C.vertex k - z k)) : ℚ) : ℝ) := by
    unfold dot rel
    push_cast
    rw [← Finset.sum_neg_distrib]
    exact Finset.sum_congr rfl fun k _ => by ring
  rw [h1]
  unfold coord
  rw [le_div_iff₀ hd, zero_mul]
  constructor
  · intro h
    have : (-(∑ k, (F j k : ℚ) * (C.vertex k - z k)) : ℚ) ≤ 0 := by exact_mod_cast h
    linarith
  · intro h
    have : (-(∑ k, (F j k : ℚ) * (C.vertex k - z k)) : ℚ) ≤ 0 := by linarith
    exact_mod_cast this

theorem pipedInput_vertex (C : Cone (m + 1)) (F : Mat (m + 1)) :
    (pipedInput C F).vertex = C.vertex := by
  funext k
  exact vertexScaled_div C.vertex k

theorem piped_iff_coord (C : Cone (m + 1)) (F : Mat (m + 1)) (hC : Piped.Good (pipedInput C F))
    (z : Vec (m + 1)) : Piped.InPiped C.rays C.vertex z ↔
      ∀ j, 0 ≤ coord C F j z ∧ coord C F j z < 1 := by
  have h1 := Piped.inPiped_iff hC (0, 0) z
  rw [pipedInput_vertex] at h1
  rw [show (pipedInput C F).rays = C.rays from rfl] at h1
  rw [h1]
  refine forall_congr' fun j => ?_
  have hd : (0 : ℚ) < C.facetDivisors j := by exact_mod_cast hC.pos j
  have hb : (Piped.mkGen (pipedInput C F) (0, 0)).beta j = ⌊∑ k, (F j k : ℚ) * C.vertex k⌋ := by
    show (∑ k, vertexScaled C.vertex k * F j k).fdiv (vertexScale C.vertex) = _
    rw [← Piped.floor_fdiv _ _ (vertexScale_ne _)]
    congr 1
    push_cast
    rw [Finset.sum_div]
    refine Finset.sum_congr rfl fun k _ => ?_
    rw [← vertexScaled_div C.vertex k]
    ring
  rw [hb]
  have hs : ∑ k, (F j k : ℚ) * (C.vertex k - z k) =
      ∑ k, (F j k : ℚ) * C.vertex k - ((∑ k, F j k * z k : ℤ) : ℚ) := by
    push_cast
    rw [← Finset.sum_sub_distrib]
    exact Finset.sum_congr rfl fun k _ => by ring
  show (⌊∑ k, (F j k : ℚ) * C.vertex k⌋ - C.facetDivisors j < ∑ k, F j k * z k ∧
    ∑ k, F j k * z k ≤ ⌊∑ k, (F j k : ℚ) * C.vertex k⌋) ↔ _
  have e2 : ∑ k, (F j k : ℚ) * (C.vertex k - z k) < C.facetDivisors j ↔
      ∑ k, (F j k : ℚ) * C.vertex k < ((∑ k, F j k * z k : ℤ) : ℚ) + C.facetDivisors j := by
    rw [hs]
    exact sub_lt_iff_lt_add'
  unfold coord
  rw [le_div_iff₀ hd, zero_mul, div_lt_one hd, e2, hs, sub_nonneg, ← Int.le_floor]
  have e : ⌊∑ k, (F j k : ℚ) * C.vertex k⌋ - C.facetDivisors j < ∑ k, F j k * z k ↔
      ∑ k, (F j k : ℚ) * C.vertex k < ((∑ k, F j k * z k : ℤ) : ℚ) + C.facetDivisors j := by
    rw [sub_lt_iff_lt_add, Int.floor_lt, Int.cast_add]
  rw [e, and_comm]

theorem coord_shift (C : Cone (m + 1)) (F : Mat (m + 1)) (hC : Piped.Good (pipedInput C F))
    (i j : Fin (m + 1)) (z : Vec (m + 1)) :
    coord C F j (z - C.rays i) = coord C F j z - if i = j then 1 else 0 := by
  have hd : (C.facetDivisors j : ℚ) ≠ 0 := by exact_mod_cast (hC.pos j).ne'
  have h1 : ∑ k, (F j k : ℚ) * (C.vertex k - ((z - C.rays i) k : ℤ)) =
      ∑ k, (F j k : ℚ) * (C.vertex k - z k) + ((∑ k, C.rays i k * F j k : ℤ) : ℚ) := by
    push_cast
    rw [← Finset.sum_add_distrib]
    refine Finset.sum_congr rfl fun k _ => ?_
    rw [Pi.sub_apply]
    push_cast
    ring
  have h2 : ∑ k, C.rays i k * F j k = if i = j then -C.facetDivisors j else 0 := hC.dual i j
  unfold coord
  rw [h1, h2]
  by_cases hij : i = j
  · rw [if_pos hij, if_pos hij]
    push_cast
    field_simp
    ring
  · rw [if_neg hij, if_neg hij]
    simp

/-- The generating function of a simplicial cone: `∏ (1 - x^{rᵢ})` times the lattice points of the
cone are the lattice points of the parallelepiped. -/
theorem act_cone (C : Cone (m + 1)) (F : Mat (m + 1)) (hC : Piped.Good (pipedInput C F))
    (pts : List (Vec (m + 1))) (hnd : pts.Nodup)
    (hpts : ∀ p, p ∈ pts ↔ Piped.InPiped C.rays C.vertex p) :
    act (den C.rays) (coneInd C.rays C.vertex) = emb (gf pts) := by
  funext p
  rw [emb_gf pts hnd]
  have key := act_prod_cone C.rays (coord C F) (fun _ => True) (fun _ _ => Iff.rfl)
    (coord_shift C F hC) (coneInd C.rays C.vertex)
    (fun p hp => by
      unfold coneInd ind
      rw [if_pos ((cone_iff_coord C F hC p).mpr hp.2)]
      rfl)
    (fun p hp => by
      unfold coneInd ind
      rw [if_neg (fun h => hp ⟨trivial, (cone_iff_coord C F hC p).mp h⟩)]
      rfl) p
  unfold den
  by_cases h : p ∈ pts
  · rw [if_pos h]
    exact key.1 ⟨trivial, (piped_iff_coord C F hC p).mp ((hpts p).mp h)⟩
  · rw [if_neg h]
    exact key.2 fun h' => h ((hpts p).mpr ((piped_iff_coord C F hC p).mpr h'.2))

/-- Cones on which the computation can be carried out: facet data in place (C15, C17), index within
`INT_MAX` and fuel for the enumeration. -/
structure Ready (fuel : ℕ) (C : Cone (m + 1)) : Prop where
  facets : ∃ F, C.facets = some F ∧ Piped.Good (pipedInput C F)
  small : |C.determinant| ≤ Piped.intMax
  fuel : |C.rays.det| < fuel

/-- The scalar products are those of the points of the parallelepiped. -/
theorem coneScalarProducts_ok (X : Smith.Xgcd) (lam : Vec (m + 1)) (fuel : ℕ) (C : Cone (m + 1))
    (hC : Ready fuel C) :
    ∃ pts : List (Vec (m + 1)), pts.Nodup ∧
      (∀ p, p ∈ pts ↔ Piped.InPiped C.rays C.vertex p) ∧
      coneScalarProducts X lam C fuel = .ok (pts.map (ip lam)) := by
  obtain ⟨F, hF, hG⟩ := hC.facets
  obtain ⟨pts, h1, h2, -, h4⟩ := Piped.c13_points_exact X (pipedInput C F) hG hC.small fuel hC.fuel
  obtain ⟨pts', h1', h5⟩ := Piped.c13_scalar_products X (pipedInput C F) hG hC.small lam fuel hC.fuel
  rw [h1] at h1'
  cases h1'
  refine ⟨pts.reverse, List.nodup_reverse.mpr h2, fun p => ?_, ?_⟩
  · rw [List.mem_reverse, h4, pipedInput_vertex]; rfl
  · unfold coneScalarProducts
    simp only [hF, h5]
    rfl

/-- The contribution of one cone. -/
theorem residueSingle_ok (X : Smith.Xgcd) (lam : Vec (m + 1)) (fuel : ℕ) (C : Cone (m + 1))
    (hC : Ready fuel C) (hgen : ∀ i, ip lam (C.rays i) ≠ 0) :
    ∃ pts : List (Vec (m + 1)), act (den C.rays) (coneInd C.rays C.vertex) = emb (gf pts) ∧
      residueSingle X lam C fuel =
        .ok ((C.coefficient : ℚ) * coeff (m + 1) (phi lam (gf pts) * coneSeries lam C.rays)) := by
  obtain ⟨pts, h1, h2, h3⟩ := coneScalarProducts_ok X lam fuel C hC
  obtain ⟨F, hF, hG⟩ := hC.facets
  obtain ⟨w, P, hw, hl, hwk⟩ := residueWeights_ok lam C.rays hgen
  refine ⟨pts, act_cone C F hG pts h1 h2, ?_⟩
  unfold residueSingle
  simp only [hw, h3]
  show Except.ok _ = _
  rw [weighted_sum lam C.rays w hl hwk pts]

end Verif.ExpSubst
