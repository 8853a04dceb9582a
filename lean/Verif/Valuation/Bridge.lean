import Verif.Valuation.ConeMethod
import Verif.Regular.Step
import Mathlib.Analysis.Convex.Measure

/-!
# From the triangulation of cones to volumes

The triangulation of a cone as `triangulateCone` delivers it (C75) is what the two methods for volumes need: for the cones at the vertices, and for the cone over the polytope.
-/

namespace Verif.Valuation

open MeasureTheory Set Verif.Barvinok Verif.Barvinok.Spec Verif.Regular Latte.RatVec

variable {n : ℕ}

/-- A vector as it stands in a `VCone`. -/
def toList (r : Vec n) : List ℤ := List.ofFn r

/-- The other direction. -/
def ofList (n : ℕ) (l : List ℤ) : Vec n := fun k => l.getD k 0

@[simp] theorem toList_getD (r : Vec n) (k : Fin n) : (toList r).getD k 0 = r k := by
  unfold toList
  rw [List.getD_eq_getElem _ _ (by simp)]
  simp

@[simp] theorem toList_length (r : Vec n) : (toList r).length = n := by simp [toList]

@[simp] theorem ofList_toList (r : Vec n) : ofList n (toList r) = r := by
  funext k
  exact toList_getD r k

theorem toList_ofList (l : List ℤ) (h : l.length = n) : toList (ofList n l) = l := by
  subst h
  unfold toList ofList
  apply List.ext_getElem (by simp)
  intro i h1 h2
  simp

theorem vecR_toList (r : Vec n) : vecR n (toList r) = fun k => (r k : ℝ) := by
  funext k
  unfold vecR
  rw [toList_getD]

theorem mem_generated (L : List (Vec n)) (x : Fin n → ℝ) :
    x ∈ generated L ↔ ∃ m : Fin L.length → ℝ, (∀ i, 0 ≤ m i) ∧ x = ∑ i, m i • (fun k => ((L.get i) k : ℝ)) := by
  unfold generated Brion.coneOf
  constructor
  · rintro ⟨c, h1, -, h3⟩
    refine ⟨c, h1, funext fun k => ?_⟩
    rw [h3, Finset.sum_apply]
    rfl
  · rintro ⟨c, h1, rfl⟩
    refine ⟨c, h1, fun i hi => absurd (Set.mem_univ i) hi, fun k => ?_⟩
    rw [Finset.sum_apply]
    rfl

theorem rayCone_toList (L : List (Vec n)) : rayCone n (L.map toList) = generated L := by
  ext x
  rw [mem_generated]
  unfold rayCone
  simp only [mem_ofPred_eq]
  have e : (L.map toList).length = L.length := List.length_map _
  have hget : ∀ (i : Fin (L.map toList).length), vecR n (L.map toList)[i] = fun k => ((L.get (Fin.cast e i)) k : ℝ) := by
    intro i
    simp [vecR_toList]
  constructor
  · rintro ⟨m, h1, rfl⟩
    refine ⟨fun i => m (Fin.cast e.symm i), fun i => h1 _, ?_⟩
    rw [← Equiv.sum_comp (finCongr e.symm)]
    refine Finset.sum_congr rfl fun i _ => ?_
    rw [hget]
    rfl
  · rintro ⟨m, h1, rfl⟩
    refine ⟨fun i => m (Fin.cast e i), fun i => h1 _, ?_⟩
    rw [← Equiv.sum_comp (finCongr e)]
    refine Finset.sum_congr rfl fun i _ => ?_
    rw [hget]
    rfl

theorem convex_generated (L : List (Vec n)) : Convex ℝ (generated L) := by
  intro x hx y hy a b ha hb _
  rw [generated_iff] at hx hy ⊢
  intro z hz
  have h1 := mul_nonneg_of_nonpos_of_nonpos (neg_nonpos.2 ha) (hx z hz)
  have h2 := mul_nonneg_of_nonpos_of_nonpos (neg_nonpos.2 hb) (hy z hz)
  have e : ∑ k, (a • x + b • y) k * z k = a * ∑ k, x k * z k + b * ∑ k, y k * z k := by
    rw [Finset.mul_sum, Finset.mul_sum, ← Finset.sum_add_distrib]
    exact Finset.sum_congr rfl fun k _ => by simp; ring
  rw [e]
  linarith

theorem generated_smul (L : List (Vec n)) {x : Fin n → ℝ} (hx : x ∈ generated L) {t : ℝ} (ht : 0 ≤ t) : t • x ∈ generated L := by
  rw [generated_iff] at hx ⊢
  intro z hz
  have h1 := mul_nonneg_of_nonpos_of_nonpos (neg_nonpos.2 ht) (hx z hz)
  have e : ∑ k, (t • x) k * z k = t * ∑ k, x k * z k := by
    rw [Finset.mul_sum]
    exact Finset.sum_congr rfl fun k _ => by simp; ring
  rw [e]
  linarith

/-- Convex sets whose interiors do not meet overlap in a null set. -/
theorem overlap_null {A B : Set (Fin n → ℝ)} (hA : Convex ℝ A) (hB : Convex ℝ B) (h : interior A ∩ interior B = ∅) : volume (A ∩ B) = 0 := by
  have h1 : volume (frontier A) = 0 := hA.addHaar_frontier volume
  have h2 : volume (frontier B) = 0 := hB.addHaar_frontier volume
  refine measure_mono_null (t := frontier A ∪ frontier B) ?_ (measure_union_null h1 h2)
  rintro x ⟨ha, hb⟩
  by_contra hx
  rw [mem_union, not_or] at hx
  have i1 : x ∈ interior A := by
    by_contra hi
    exact hx.1 ⟨subset_closure ha, hi⟩
  have i2 : x ∈ interior B := by
    by_contra hi
    exact hx.2 ⟨subset_closure hb, hi⟩
  have : x ∈ interior A ∩ interior B := ⟨i1, i2⟩
  rw [h] at this
  exact this

/-- A convex set that is not a null set has an interior point. -/
theorem interior_of_volume {A : Set (Fin n → ℝ)} (hA : Convex ℝ A) (h : volume A ≠ 0) : (interior A).Nonempty := by
  by_contra hne
  rw [not_nonempty_iff_eq_empty] at hne
  refine h (measure_mono_null (t := frontier A) ?_ (hA.addHaar_frontier volume))
  intro x hx
  refine ⟨subset_closure hx, ?_⟩
  rw [hne]
  exact notMem_empty x

/-- **The cones at the vertices.** -/
theorem simplicial_of_subdivides (v : RVec) (L : List (Vec n)) (parts : List (List (Vec n))) (h : Subdivides parts (generated L))
    (hlen : ∀ p ∈ parts, p.length = n) (coef : ℤ) :
    Simplicial n ⟨v, L.map toList, coef⟩ (parts.map fun p => ⟨v, p.map toList, 1⟩) := by
  refine ⟨?_, ?_, ?_, ?_, ?_, ?_, ?_⟩
  · intro k hk
    obtain ⟨p, -, rfl⟩ := List.mem_map.1 hk
    rfl
  · intro k hk
    obtain ⟨p, -, rfl⟩ := List.mem_map.1 hk
    rfl
  · intro k hk
    obtain ⟨p, hp, rfl⟩ := List.mem_map.1 hk
    simpa using hlen p hp
  · intro k hk r hr
    obtain ⟨p, -, rfl⟩ := List.mem_map.1 hk
    obtain ⟨q, -, rfl⟩ := List.mem_map.1 hr
    simp
  · intro k hk
    obtain ⟨p, hp, rfl⟩ := List.mem_map.1 hk
    have h1 := (simplicial_of_length p (hlen p hp) (h.spans p hp)).1
    rw [← Matrix.det_transpose] at h1
    convert h1 using 2
    ext i j
    have hj : (j : ℕ) < p.length := by rw [hlen p hp]; exact j.2
    change ((p.map toList).getD j []).getD i 0 = p.getD j 0 i
    have h2 : (p.map toList).getD j [] = toList p[(j : ℕ)] := by rw [List.getD_eq_getElem _ _ (by simpa using hj), List.getElem_map]
    rw [h2, List.getD_eq_getElem _ _ hj, toList_getD]
  · change rayCone n (L.map toList) = _
    rw [rayCone_toList]
    ext x
    rw [h.covers, mem_iUnion₂]
    constructor
    · rintro ⟨p, hp, hx⟩
      exact ⟨_, List.mem_map_of_mem hp, by change x ∈ rayCone n (p.map toList); rw [rayCone_toList]; exact hx⟩
    · rintro ⟨k, hk, hx⟩
      obtain ⟨p, hp, rfl⟩ := List.mem_map.1 hk
      exact ⟨p, hp, by rw [← rayCone_toList]; exact hx⟩
  · rw [List.pairwise_map]
    refine h.disjoint.imp fun {p q} hpq => ?_
    change volume (rayCone n (p.map toList) ∩ rayCone n (q.map toList)) = 0
    rw [rayCone_toList, rayCone_toList]
    exact overlap_null (convex_generated p) (convex_generated q) hpq

/-! ### the cone over the polytope -/

/-- The point at height 1. -/
noncomputable def atOne (x : Fin n → ℝ) : Fin (n + 1) → ℝ := Fin.snoc x 1

theorem chart_toList (r : Vec (n + 1)) : chart n (toList r) = fun k => (r k.castSucc : ℝ) / (r (Fin.last n) : ℝ) := by
  funext k
  unfold chart
  have h1 := toList_getD r k.castSucc
  have h2 := toList_getD r (Fin.last n)
  simp only [Fin.val_castSucc, Fin.val_last] at h1 h2
  rw [h1, h2]

theorem mem_hull_toList (L : List (Vec (n + 1))) (hp : ∀ r ∈ L, 0 < r (Fin.last n)) (x : Fin n → ℝ) :
    x ∈ hull n (L.map toList) ↔ atOne x ∈ generated L := by
  have hset : {y | ∃ r ∈ L.map toList, y = chart n r} = range fun i : Fin L.length => chart n (toList (L.get i)) := by
    ext y
    simp only [mem_ofPred_eq, mem_range]
    constructor
    · rintro ⟨r, hr, rfl⟩
      obtain ⟨q, hq, rfl⟩ := List.mem_map.1 hr
      obtain ⟨i, rfl⟩ := List.get_of_mem hq
      exact ⟨i, rfl⟩
    · rintro ⟨i, rfl⟩
      exact ⟨_, List.mem_map_of_mem (List.get_mem L i), rfl⟩
  have hpos : ∀ i : Fin L.length, (0:ℝ) < (L.get i (Fin.last n) : ℝ) := fun i => by exact_mod_cast hp _ (List.get_mem L i)
  have hc : ∀ (i : Fin L.length) (k : Fin n), chart n (toList (L.get i)) k * (L.get i (Fin.last n) : ℝ) = (L.get i k.castSucc : ℝ) := by
    intro i k
    rw [chart_toList]
    exact div_mul_cancel₀ _ (hpos i).ne'
  unfold hull
  rw [hset, Measure.convexHull_range, mem_generated]
  constructor
  · rintro ⟨l, hl, hl1, rfl⟩
    refine ⟨fun i => l i / (L.get i (Fin.last n) : ℝ), fun i => div_nonneg (hl i) (hpos i).le, funext fun k => ?_⟩
    rw [Finset.sum_apply]
    refine Fin.lastCases ?_ (fun k => ?_) k
    · simp only [atOne, Fin.snoc_last, Pi.smul_apply, smul_eq_mul]
      rw [← hl1]
      exact Finset.sum_congr rfl fun i _ => (div_mul_cancel₀ _ (hpos i).ne').symm
    · simp only [atOne, Fin.snoc_castSucc, Pi.smul_apply, smul_eq_mul, Finset.sum_apply]
      refine Finset.sum_congr rfl fun i _ => ?_
      rw [← hc i k]
      have := (hpos i).ne'
      field_simp
  · rintro ⟨m, hm, he⟩
    have hk : ∀ k, atOne x k = ∑ i, m i * (L.get i k : ℝ) := fun k => by rw [he, Finset.sum_apply]; rfl
    refine ⟨fun i => m i * (L.get i (Fin.last n) : ℝ), fun i => mul_nonneg (hm i) (hpos i).le, ?_, funext fun k => ?_⟩
    · have := hk (Fin.last n)
      simp only [atOne, Fin.snoc_last] at this
      exact this.symm
    · have := hk k.castSucc
      simp only [atOne, Fin.snoc_castSucc] at this
      rw [this, Finset.sum_apply]
      refine Finset.sum_congr rfl fun i _ => ?_
      rw [← hc i k]
      simp only [Pi.smul_apply, smul_eq_mul]
      ring

/-- Cones over polytopes: if the interiors of the cones do not meet, the polytopes overlap in a null set. -/
theorem hull_overlap (L L' : List (Vec (n + 1))) (hp : ∀ r ∈ L, 0 < r (Fin.last n)) (hp' : ∀ r ∈ L', 0 < r (Fin.last n))
    (h : interior (generated L) ∩ interior (generated L') = ∅) : volume (hull n (L.map toList) ∩ hull n (L'.map toList)) = 0 := by
  by_contra hne
  have hconv : Convex ℝ (hull n (L.map toList) ∩ hull n (L'.map toList)) := (convex_convexHull ℝ _).inter (convex_convexHull ℝ _)
  obtain ⟨x, hx⟩ := interior_of_volume hconv hne
  set U := interior (hull n (L.map toList) ∩ hull n (L'.map toList)) with hU
  -- the open cone over `U`
  set V : Set (Fin (n + 1) → ℝ) := {y | 0 < y (Fin.last n)} with hV
  have hVo : IsOpen V := isOpen_lt continuous_const (continuous_apply _)
  set g : (Fin (n + 1) → ℝ) → Fin n → ℝ := fun y k => y k.castSucc / y (Fin.last n) with hg
  have hgc : ContinuousOn g V := by
    refine continuousOn_pi.2 fun k => ?_
    exact (continuous_apply _).continuousOn.div (continuous_apply _).continuousOn fun y hy => ne_of_gt hy
  have hW : IsOpen (V ∩ g ⁻¹' U) := hgc.isOpen_inter_preimage hVo isOpen_interior
  have hxW : atOne x ∈ V ∩ g ⁻¹' U := by
    refine ⟨by simp [hV, atOne], ?_⟩
    have : g (atOne x) = x := by
      funext k
      simp [hg, atOne]
    rw [mem_preimage, this]
    exact hx
  have hsub : V ∩ g ⁻¹' U ⊆ generated L ∩ generated L' := by
    rintro y ⟨hy, hyU⟩
    have hm := interior_subset hyU
    have hy0 : (0:ℝ) < y (Fin.last n) := hy
    have e : y = y (Fin.last n) • atOne (g y) := by
      funext k
      refine Fin.lastCases ?_ (fun k => ?_) k
      · simp [atOne]
      · simp only [atOne, Pi.smul_apply, Fin.snoc_castSucc, smul_eq_mul, hg]
        field_simp
    rw [e]
    exact ⟨generated_smul L ((mem_hull_toList L hp _).1 hm.1) hy0.le, generated_smul L' ((mem_hull_toList L' hp' _).1 hm.2) hy0.le⟩
  have : atOne x ∈ interior (generated L) ∩ interior (generated L') := by
    rw [← interior_inter]
    exact mem_interior.2 ⟨_, hsub, hW, hxW⟩
  rw [h] at this
  exact this

/-- The last coordinate is positive on the cone over a polytope. -/
theorem last_pos (L : List (Vec (n + 1))) (hp : ∀ r ∈ L, 0 < r (Fin.last n)) (p : List (Vec (n + 1))) (hs : Spans p) (hlen : p.length = n + 1)
    (hsub : generated p ⊆ generated L) : ∀ r ∈ p, 0 < r (Fin.last n) := by
  intro r hr
  obtain ⟨i, rfl⟩ := List.get_of_mem hr
  have hmem : (fun k => ((p.get i) k : ℝ)) ∈ generated L := by
    refine hsub ((mem_generated _ _).2 ⟨fun j => if j = i then 1 else 0, fun j => by positivity, ?_⟩)
    simp
  obtain ⟨m, hm, he⟩ := (mem_generated _ _).1 hmem
  have hk : ∀ k, (p.get i k : ℝ) = ∑ j, m j * (L.get j k : ℝ) := fun k => by
    have := congrFun he k
    rw [Finset.sum_apply] at this
    exact this
  have hpos : ∀ j : Fin L.length, (0:ℝ) < (L.get j (Fin.last n) : ℝ) := fun j => by exact_mod_cast hp _ (List.get_mem L j)
  have h0 : (0:ℝ) ≤ (p.get i (Fin.last n) : ℝ) := by
    rw [hk]
    exact Finset.sum_nonneg fun j _ => mul_nonneg (hm j) (hpos j).le
  rcases h0.lt_or_eq with h1 | h1
  · exact_mod_cast h1
  · exfalso
    rw [hk] at h1
    have hz := (Finset.sum_eq_zero_iff_of_nonneg fun j _ => mul_nonneg (hm j) (hpos j).le).1 h1.symm
    have hmz : ∀ j, m j = 0 := fun j => (mul_eq_zero.1 (hz j (Finset.mem_univ j))).resolve_right (hpos j).ne'
    have hr0 : p.get i = 0 := by
      funext k
      have := hk k
      simp only [hmz, zero_mul, Finset.sum_const_zero] at this
      exact_mod_cast this
    have hdet := (simplicial_of_length p hlen hs).1
    apply hdet
    refine Matrix.det_eq_zero_of_row_eq_zero ⟨i, lt_of_lt_of_eq i.2 hlen⟩ fun k => ?_
    change p.getD i 0 k = 0
    rw [List.getD_eq_getElem _ _ i.2]
    exact congrFun hr0 k

/-- **The cone over the polytope.** -/
theorem hull_of_subdivides (L : List (Vec (n + 1))) (hp : ∀ r ∈ L, 0 < r (Fin.last n)) (parts : List (List (Vec (n + 1)))) (h : Subdivides parts (generated L))
    (hlen : ∀ p ∈ parts, p.length = n + 1) :
    (∀ p ∈ parts, ∀ r ∈ p, 0 < r (Fin.last n)) ∧ hull n (L.map toList) = (⋃ c ∈ parts.map (List.map toList), hull n c) ∧
      (parts.map (List.map toList)).Pairwise fun c c' => volume (hull n c ∩ hull n c') = 0 := by
  have hpos : ∀ p ∈ parts, ∀ r ∈ p, 0 < r (Fin.last n) := fun p hp' =>
    last_pos L hp p (h.spans p hp') (hlen p hp') fun x hx => (h.covers x).2 ⟨p, hp', hx⟩
  refine ⟨hpos, ?_, ?_⟩
  · ext x
    rw [mem_hull_toList L hp, h.covers, mem_iUnion₂]
    constructor
    · rintro ⟨p, h1, h2⟩
      exact ⟨_, List.mem_map_of_mem h1, (mem_hull_toList p (hpos p h1) x).2 h2⟩
    · rintro ⟨c, hc, hx⟩
      obtain ⟨p, h1, rfl⟩ := List.mem_map.1 hc
      exact ⟨p, h1, (mem_hull_toList p (hpos p h1) x).1 hx⟩
  · rw [List.pairwise_map]
    refine List.Pairwise.imp_of_mem (fun {p q} h1 h2 hpq => ?_) h.disjoint
    exact hull_overlap p q (hpos p h1) (hpos q h2) hpq

end Verif.Valuation
