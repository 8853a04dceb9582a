import Verif.Valuation.Dilate

/-! C50–: integrals and volumes of polytopes computed through a triangulation. -/

namespace Verif.Valuation

open MeasureTheory Set Verif.Measure Verif.Trie Latte.RatVec
open scoped Pointwise

/-- **Specification.** A vertex as handed to the class: `n` rational coordinates with positive denominators (and a consistent cache). -/
structure VertexOk (n : ℕ) (v : RVec) : Prop where
  len : v.ents.length = n
  den : ∀ e ∈ v.ents, 0 < e.2
  cache : CacheOk v
  fac : v.computed = true → 0 < v.factor

/-- **Specification.** The point of `ℝ^n` denoted by a rational vector. -/
noncomputable def pointR (n : ℕ) (v : RVec) : Fin n → ℝ := fun i => ((v.ents.getD i (0, 1)).1 : ℝ) / ((v.ents.getD i (0, 1)).2 : ℝ)

/-- **Specification.** The polytope spanned by the vertices of the tangent cones. -/
noncomputable def polytope (n : ℕ) (cones : List VCone) : Set (Fin n → ℝ) := convexHull ℝ {x | ∃ c ∈ cones, x = pointR n c.vertex}

/-- **Specification.** Contract of the triangulation engine for a given polytope and its dilates. -/
def TriangulatesPolytope (T : ℕ → VCone → List VCone) (n : ℕ) (cones : List VCone) : Prop :=
  ∀ rs : List (List ℤ), GoodRays n rs → (∃ t : ℝ, 0 < t ∧ rs.map (chart n) = (cones.map fun c => t • pointR n c.vertex).reverse) →
    Triangulates n rs ((T 0 ⟨ofDim (n + 1), rs, 1⟩).map (·.rays))

/-- The contract for the one list of points that the integration uses: those of the dilated polytope, whose vertices are integral. -/
def TriangulatesDilate (T : ℕ → VCone → List VCone) (n : ℕ) (cones : List VCone) : Prop :=
  ∀ rs : List (List ℤ), (∀ r ∈ rs, r.length = n + 1 ∧ r.getD n 0 = 1) →
    rs.map (chart n) = (cones.map fun c => (dilationFactorVertexRays cones : ℝ) • pointR n c.vertex).reverse →
    Triangulates n rs ((T 0 ⟨ofDim (n + 1), rs, 1⟩).map (·.rays))

/-! ### vertices -/

theorem scale_spec (n : ℕ) (v : RVec) (h : VertexOk n v) :
    0 < (scale v).2.1 ∧ (scale v).1.length = n ∧ ∀ i < n, (((scale v).1.getD i 0 : ℤ) : ℚ) / (scale v).2.1 =
      ((v.ents.getD i (0, 1)).1 : ℚ) / ((v.ents.getD i (0, 1)).2 : ℚ) := by
  have hden : DenOk v := fun e he => (h.den e he).ne'
  have main : ∀ w : RVec, w.ents = v.ents → w.computed = true → CacheOk w → 0 < w.factor → 0 < w.factor ∧ w.iscale.length = n ∧
      ∀ i < n, ((w.iscale.getD i 0 : ℤ) : ℚ) / w.factor = ((v.ents.getD i (0, 1)).1 : ℚ) / ((v.ents.getD i (0, 1)).2 : ℚ) := by
    intro w e hc hk hf
    obtain ⟨_, h2⟩ := hk hc
    rw [e] at h2
    have hl : w.iscale.length = n := by
      have := congrArg List.length h2
      simpa [h.len] using this
    refine ⟨hf, hl, fun i hi => ?_⟩
    have h3 : (w.iscale.map fun (u : ℤ) => (u : ℚ) / w.factor)[i]? = (v.ents.map val)[i]? := by rw [h2]
    rw [List.getElem?_map, List.getElem?_map, List.getElem?_eq_getElem (by omega), List.getElem?_eq_getElem (by rw [h.len]; exact hi)] at h3
    simp only [Option.map_some, Option.some.injEq] at h3
    rw [List.getD_eq_getElem _ _ (by omega), List.getD_eq_getElem _ _ (by rw [h.len]; exact hi), h3]
    rfl
  unfold scale
  by_cases hc : v.computed = true
  · simp only [hc, if_true]
    exact main v rfl hc h.cache (h.fac hc)
  · simp only [hc, Bool.false_eq_true, if_false]
    obtain ⟨a, b, c, d⟩ := compute_ok v hden
    exact main (compute v) b c a (by rw [d]; exact (factorOf_spec v.ents hden).2.2.2 h.den)

theorem liftVertex_spec (n : ℕ) (v : RVec) (h : VertexOk n v) :
    (liftVertex v).length = n + 1 ∧ (liftVertex v).getD n 0 = (scale v).2.1 ∧ 0 < (liftVertex v).getD n 0 ∧ chart n (liftVertex v) = pointR n v := by
  obtain ⟨h1, h2, h3⟩ := scale_spec n v h
  have hlast : (liftVertex v).getD n 0 = (scale v).2.1 := by
    unfold liftVertex
    rw [List.getD_eq_getElem?_getD, List.getElem?_append_right (by omega), h2]; simp
  refine ⟨by simp [liftVertex, h2], hlast, by rw [hlast]; exact h1, ?_⟩
  funext i
  unfold chart pointR
  rw [hlast]
  have hi : (liftVertex v).getD i 0 = (scale v).1.getD i 0 := by
    unfold liftVertex
    rw [List.getD_eq_getElem?_getD, List.getElem?_append_left (by omega), ← List.getD_eq_getElem?_getD]
  rw [hi]
  have := congrArg (fun q : ℚ => (q : ℝ)) (h3 i i.2)
  simpa using this

theorem canonEntry_integral (a d D : ℤ) (hd : 0 < d) (hdvd : d ∣ D) : (canonEntry (a * D, d * 1)).2 = 1 := by
  unfold canonEntry
  simp only [mul_one]
  have hg : (Int.gcd (a * D) d : ℤ) = d := by
    have : Int.gcd (a * D) d = d.natAbs := Int.gcd_eq_natAbs_right (dvd_mul_of_dvd_right hdvd a)
    rw [this]; omega
  rw [hg]
  split_ifs with h
  · exact Int.fdiv_self hd.ne'
  · push Not at h; exact h

theorem scalarMul_spec (n : ℕ) (v : RVec) (h : VertexOk n v) (D : ℤ) (hD : 0 < D) (hdvd : ∀ e ∈ v.ents, e.2 ∣ D) :
    VertexOk n (scalarMul v D 1) ∧ pointR n (scalarMul v D 1) = (D : ℝ) • pointR n v ∧ (scale (scalarMul v D 1)).2.1 = 1 := by
  have hden : DenOk { v with ents := v.ents.map fun e => (e.1 * D, e.2 * 1), computed := false } := by
    intro e he
    obtain ⟨x, hx, rfl⟩ := List.mem_map.1 he
    simpa using (h.den x hx).ne'
  obtain ⟨s1, s2, s3, s4, s5⟩ := canonicalize_spec _ hden (by intro hc; simp at hc)
  have hents : (scalarMul v D 1).ents = v.ents.map fun e => canonEntry (e.1 * D, e.2 * 1) := by
    unfold scalarMul; rw [s3, List.map_map]; rfl
  have hone : ∀ e ∈ (scalarMul v D 1).ents, e.2 = 1 := by
    intro e he
    rw [hents] at he
    obtain ⟨x, hx, rfl⟩ := List.mem_map.1 he
    exact canonEntry_integral _ _ _ (h.den x hx) (hdvd x hx)
  have hcomp : (scalarMul v D 1).computed = true := s5
  have hfac : (scalarMul v D 1).factor = 1 := by
    have : scalarMul v D 1 = compute { v with ents := (v.ents.map fun e => (e.1 * D, e.2 * 1)).map canonEntry, computed := false } := by
      unfold scalarMul canonicalize
      simp
    rw [this]
    obtain ⟨_, _, _, d⟩ := compute_ok { v with ents := (v.ents.map fun e => (e.1 * D, e.2 * 1)).map canonEntry, computed := false } (by
      intro e he
      have := hone e (by rw [hents]; simpa [List.map_map] using he)
      omega)
    rw [d]
    have hes : ∀ e ∈ (v.ents.map fun e => (e.1 * D, e.2 * 1)).map canonEntry, e.2 = 1 := by
      intro e he
      exact hone e (by rw [hents]; simpa [List.map_map] using he)
    obtain ⟨f1, f2, f3, f4⟩ := factorOf_spec ((v.ents.map fun e => (e.1 * D, e.2 * 1)).map canonEntry) (fun e he => by rw [hes e he]; decide)
    have g1 := f3 1 (fun e he => by rw [hes e he])
    have g2 := f4 (fun e he => by rw [hes e he]; decide)
    exact Int.eq_one_of_dvd_one g2.le g1
  refine ⟨⟨by rw [hents]; simp [h.len], fun e he => by rw [hone e he]; decide, s2, fun _ => by rw [hfac]; decide⟩, ?_, ?_⟩
  · funext i
    unfold pointR
    simp only [Pi.smul_apply, smul_eq_mul]
    have hi : (i : ℕ) < v.ents.length := by rw [h.len]; exact i.2
    rw [hents, List.getD_eq_getElem _ _ (by simpa using hi), List.getElem_map, List.getD_eq_getElem _ _ hi]
    set e := v.ents[(i : ℕ)]
    have he : 0 < e.2 := h.den e (List.getElem_mem _)
    have h1 : ((e.2 : ℤ) : ℝ) ≠ 0 := by exact_mod_cast he.ne'
    have := (canonEntry_spec (e.1 * D, e.2 * 1) (by simpa using he.ne')).2.1
    have h2 := congrArg (fun q : ℚ => (q : ℝ)) this
    simp only [val] at h2
    push_cast at h2
    rw [h2]
    field_simp
  · unfold scale
    simp only [hcomp, if_true, hfac]

/-! ### dilation factors -/

theorem lcmPV_eq (a b : ℤ) : lcmPV a b = lcmZ a b := by
  unfold lcmPV lcmZ
  obtain ⟨k, hk⟩ := Int.gcd_dvd_right (a := a) (b := b)
  by_cases hg : (Int.gcd a b : ℤ) = 0
  · rw [hg]; simp
  · have e1 : b.fdiv (Int.gcd a b : ℤ) = k := by
      conv_lhs => rw [show b.fdiv (Int.gcd a b : ℤ) = ((Int.gcd a b : ℤ) * k).fdiv (Int.gcd a b : ℤ) by rw [← hk]]
      exact Int.mul_fdiv_cancel_left _ hg
    have e2 : (a * b).fdiv (Int.gcd a b : ℤ) = a * k := by
      have : a * b = (Int.gcd a b : ℤ) * (a * k) := by
        calc a * b = a * ((Int.gcd a b : ℤ) * k) := by rw [← hk]
          _ = _ := by ring
      rw [this]
      exact Int.mul_fdiv_cancel_left _ hg
    rw [e1, e2]

theorem lcm_fold_pos {α : Type} (g : α → ℤ) (l : List α) (h : ∀ x ∈ l, 0 < g x) : ∀ f : ℤ, 0 < f →
    0 < l.foldl (fun f x => lcmPV f (g x)) f ∧ f ∣ l.foldl (fun f x => lcmPV f (g x)) f ∧ ∀ x ∈ l, g x ∣ l.foldl (fun f x => lcmPV f (g x)) f := by
  induction l with
  | nil => intro f hf; exact ⟨hf, dvd_rfl, by simp⟩
  | cons x l ih =>
    intro f hf
    have hx := h x (by simp)
    obtain ⟨a, b, c⟩ := ih (fun y hy => h y (by simp [hy])) (lcmPV f (g x)) (by rw [lcmPV_eq]; exact lcmZ_pos hf hx)
    rw [lcmPV_eq] at a b c
    rw [List.foldl_cons, lcmPV_eq]
    refine ⟨a, (dvd_lcmZ_left _ _).trans b, ?_⟩
    intro y hy
    rcases List.mem_cons.1 hy with rfl | hy
    · exact (dvd_lcmZ_right _ _).trans b
    · exact c y hy

theorem dilationFactorVertexRays_spec (n : ℕ) (cs : List VCone) (h : ∀ c ∈ cs, VertexOk n c.vertex) :
    0 < dilationFactorVertexRays cs ∧ ∀ c ∈ cs, ∀ e ∈ c.vertex.ents, e.2 ∣ dilationFactorVertexRays cs := by
  have key : ∀ (cs : List VCone), (∀ c ∈ cs, VertexOk n c.vertex) → ∀ f : ℤ, 0 < f →
      let F := cs.foldl (fun f c => c.vertex.ents.foldl (fun f e => lcmPV f e.2) f) f
      0 < F ∧ f ∣ F ∧ ∀ c ∈ cs, ∀ e ∈ c.vertex.ents, e.2 ∣ F := by
    intro cs
    induction cs with
    | nil => intro _ f hf; exact ⟨hf, dvd_rfl, by simp⟩
    | cons c cs ih =>
      intro h f hf
      obtain ⟨a, b, d⟩ := lcm_fold_pos (fun e : ℤ × ℤ => e.2) c.vertex.ents (h c (by simp)).den f hf
      obtain ⟨a', b', d'⟩ := ih (fun k hk => h k (by simp [hk])) _ a
      refine ⟨a', b.trans b', ?_⟩
      intro k hk e he
      rcases List.mem_cons.1 hk with rfl | hk
      · exact (d e he).trans b'
      · exact d' k hk e he
  obtain ⟨a, _, b⟩ := key cs h 1 one_pos
  exact ⟨a, b⟩

theorem dilationFactorOneCone_spec (n : ℕ) (rs : List (List ℤ)) (h : GoodRays n rs) :
    0 < dilationFactorOneCone (n + 1) rs ∧ ∀ r ∈ rs, r.getD n 0 ∣ dilationFactorOneCone (n + 1) rs := by
  obtain ⟨a, _, b⟩ := lcm_fold_pos (fun r : List ℤ => r.getD n 0) rs (fun r hr => (h r hr).2) 1 one_pos
  exact ⟨a, b⟩

theorem dilateRay_spec (n : ℕ) (r : List ℤ) (hl : r.length = n + 1) (hp : 0 < r.getD n 0) (D : ℤ) (hD : 0 < D) (hdvd : r.getD n 0 ∣ D) :
    ∃ r', dilateRay (n + 1) D r = some r' ∧ r'.length = n + 1 ∧ r'.getD n 0 = D ∧ chart n r' = chart n r := by
  unfold dilateRay
  simp only [Nat.add_sub_cancel]
  rw [if_pos ⟨hp.ne', hdvd⟩]
  set m := D / r.getD n 0 with hm
  have hmD : r.getD n 0 * m = D := Int.mul_ediv_cancel' hdvd
  have hlast : ((r.map (· * m)).set n D).getD n 0 = D := by
    rw [List.getD_eq_getElem _ _ (by simp [hl])]; simp
  refine ⟨_, rfl, by simp [hl], hlast, ?_⟩
  funext i
  unfold chart
  rw [hlast]
  have hi : ((r.map (· * m)).set n D).getD i 0 = r.getD i 0 * m := by
    have : (i : ℕ) < r.length := by have := i.2; omega
    rw [List.getD_eq_getElem _ _ (by simpa using this), List.getElem_set_ne (by have := i.2; omega), List.getElem_map, List.getD_eq_getElem _ _ this]
  rw [hi]
  have h1 : ((r.getD n 0 : ℤ) : ℝ) ≠ 0 := by exact_mod_cast hp.ne'
  have h2 : ((m : ℤ) : ℝ) ≠ 0 := by
    have : m ≠ 0 := by rintro h; rw [h, mul_zero] at hmD; omega
    exact_mod_cast this
  rw [← hmD]
  push_cast
  rw [mul_div_mul_right _ _ h2]

theorem dilateRays_spec (n : ℕ) (D : ℤ) (hD : 0 < D) (rs : List (List ℤ)) (h : GoodRays n rs) (hdvd : ∀ r ∈ rs, r.getD n 0 ∣ D) :
    ∃ rs', rs.mapM (dilateRay (n + 1) D) = some rs' ∧ (∀ r ∈ rs', r.length = n + 1 ∧ r.getD n 0 = D) ∧ rs'.map (chart n) = rs.map (chart n) := by
  induction rs with
  | nil => exact ⟨[], rfl, by simp, rfl⟩
  | cons r rs ih =>
    obtain ⟨r', e, a, b, c⟩ := dilateRay_spec n r (h r (by simp)).1 (h r (by simp)).2 D hD (hdvd r (by simp))
    obtain ⟨rs', e', a', c'⟩ := ih (fun q hq => h q (by simp [hq])) (fun q hq => hdvd q (by simp [hq]))
    refine ⟨r' :: rs', ?_, ?_, by rw [List.map_cons, List.map_cons, c, c']⟩
    · rw [List.mapM_cons, e, e']; rfl
    · intro q hq
      rcases List.mem_cons.1 hq with rfl | hq
      · exact ⟨a, b⟩
      · exact a' q hq

theorem hull_eq_image (n : ℕ) (rs : List (List ℤ)) : hull n rs = convexHull ℝ {x | x ∈ rs.map (chart n)} := by
  unfold hull
  congr 1
  ext x
  simp only [mem_ofPred_eq, List.mem_map]
  constructor
  · rintro ⟨r, hr, rfl⟩; exact ⟨r, hr, rfl⟩
  · rintro ⟨r, hr, rfl⟩; exact ⟨r, hr, rfl⟩

theorem hull_eq_smul (n : ℕ) (rs : List (List ℤ)) (cones : List VCone) (t : ℝ)
    (h : rs.map (chart n) = (cones.map fun c => t • pointR n c.vertex).reverse) : hull n rs = t • polytope n cones := by
  rw [hull_eq_image, h]
  unfold polytope
  rw [← convexHull_smul]
  congr 1
  ext x
  simp only [List.mem_reverse, List.mem_map, mem_ofPred_eq, mem_smul_set]
  constructor
  · rintro ⟨c, hc, rfl⟩; exact ⟨_, ⟨c, hc, rfl⟩, rfl⟩
  · rintro ⟨y, ⟨c, hc, rfl⟩, rfl⟩; exact ⟨c, hc, rfl⟩

/-! ### from dilated data to the answer -/

/-- integral part of `finish` -/
theorem integralTriangulation_spec (n : ℕ) (hn : n < 1000) (fuel rounds : ℕ) (p : PV) (hp : p.numOfVarsOneCone = n + 1)
    (rs : List (List ℤ)) (a : ℤ) (ha : 0 < a) (hrs : ∀ r ∈ rs, r.getD n 0 = a) (cs : List VCone) (htri : p.tri = some cs)
    (hT : Triangulates n rs (cs.map (·.rays))) (lf : Sum ℚ) (hvar : lf.varCount = n) (out : List (Term ℚ))
    (hd : lf.termCount ≠ 0 → drain fuel rounds (begin' lf.trie n) = some out) (h0 : lf.termCount = 0 ↔ out = [])
    (hout : ∀ t ∈ out, 0 < t.degree ∧ t.degree + n < 2 ^ 20) :
    ∃ v : ℚ, integralTriangulation fuel rounds p lf = some v ∧ (v : ℝ) = ∫ x in (a : ℝ) • hull n rs, polyAt (formsPoly n out) x := by
  unfold integralTriangulation
  by_cases hz : lf.termCount = 0
  · rw [if_pos hz]
    refine ⟨0, rfl, ?_⟩
    rw [h0.1 hz]
    simp [formsPoly, polyAt]
  · rw [if_neg hz, hvar, hd hz, Option.bind_some, hp, htri]
    exact simplexLoop_triangulated n hn a ha out ⟨fun h => hz (h0.2 h), hout⟩ rs hrs cs hT

theorem volume_value (n : ℕ) (rs : List (List ℤ)) (h : GoodRays n rs) (cs : List VCone) (hT : Triangulates n rs (cs.map (·.rays))) :
    ∃ v : ℚ, volumeLoop (n + 1) cs 0 = some v ∧ (v : ℝ) = (volume (hull n rs)).toReal := by
  obtain ⟨v, e, hv⟩ := volumeLoop_spec n cs (fun c hc => ⟨hT.size _ (List.mem_map.2 ⟨c, hc, rfl⟩), fun r hr =>
    (h r (hT.sub _ (List.mem_map.2 ⟨c, hc, rfl⟩) r hr)).2⟩) 0
  refine ⟨v, e, ?_⟩
  rw [hv, volume_triangulated n rs _ hT, List.map_map, Rat.cast_zero, zero_add]
  rfl

/-- `finish` with the triangulation method -/
theorem finish_spec (T : ℕ → VCone → List VCone) (n : ℕ) (hn : n < 1000) (fuel rounds : ℕ) (draws draws' : List ℕ) (D : ℤ) (p q : PV)
    (rs : List (List ℤ)) (hconv : convertToOneCone p = some q) (hq1 : q.numOfVarsOneCone = n + 1) (hq2 : q.oneCone = some rs)
    (hq3 : q.tri = none) (a : ℤ) (ha : 0 < a) (hrs : ∀ r ∈ rs, r.length = n + 1 ∧ r.getD n 0 = a)
    (hT : Triangulates n rs ((T 0 ⟨ofDim (n + 1), rs, 1⟩).map (·.rays))) (lf : Sum ℚ) (hvar : lf.varCount = n) (c : ℚ)
    (out : List (Term ℚ)) (hd : lf.termCount ≠ 0 → drain fuel rounds (begin' lf.trie n) = some out) (h0 : lf.termCount = 0 ↔ out = [])
    (hout : ∀ t ∈ out, 0 < t.degree ∧ t.degree + n < 2 ^ 20) :
    ∃ v : ℚ, finish T fuel rounds .triangulation draws draws' D lf c p = some (v, { q with tri := some (T 0 ⟨ofDim (n + 1), rs, 1⟩) }) ∧
      (v : ℝ) = (∫ x in (a : ℝ) • hull n rs, polyAt (formsPoly n out) x) / (D : ℝ) ^ n +
        (if q.numOfVars ≠ n + 1 then (volume (hull n rs)).toReal * c / (D : ℝ) ^ n else (volume (hull n rs)).toReal * c) := by
  set cs := T 0 ⟨ofDim (n + 1), rs, 1⟩ with hcs
  have htri : triangulateOneCone T q = some { q with tri := some cs } := by
    unfold triangulateOneCone
    rw [hq3, hq2, hq1]
    rfl
  obtain ⟨v, e, hv⟩ := integralTriangulation_spec n hn fuel rounds { q with tri := some cs } hq1 rs a ha (fun r hr => (hrs r hr).2) cs rfl hT
    lf hvar out hd h0 hout
  have hgood : GoodRays n rs := fun r hr => ⟨(hrs r hr).1, by rw [(hrs r hr).2]; exact ha⟩
  obtain ⟨w, e', hw⟩ := volume_value n rs hgood cs hT
  unfold finish
  simp only
  rw [hconv, Option.bind_some, htri, Option.bind_some, e, Option.bind_some, hvar]
  by_cases hc : c ≠ 0
  · rw [if_pos hc]
    have hvol : findVolume T .triangulation [] { q with tri := some cs } = some (w, { q with tri := some cs }) := by
      unfold findVolume
      have h1 : convertToOneCone { q with tri := some cs } = some { q with tri := some cs } := by
        unfold convertToOneCone; simp [hq2]
      have h2 : triangulateOneCone T { q with tri := some cs } = some { q with tri := some cs } := by
        unfold triangulateOneCone; simp
      simp only
      rw [h1, Option.bind_some, h2, Option.bind_some]
      simp only [hq1, Option.getD_some]
      rw [e', Option.map_some]
    rw [hvol, Option.map_some]
    refine ⟨_, rfl, ?_⟩
    simp only [hq1]
    rw [← hw, ← hv]
    split_ifs <;> push_cast <;> rfl
  · rw [if_neg hc]
    refine ⟨_, rfl, ?_⟩
    push Not at hc
    rw [hc, ← hv]
    simp

/-- the integral over the dilate, divided by the dilation factor -/
theorem undilate (n : ℕ) (D : ℤ) (hD : 0 < D) (K : Set (Fin n → ℝ)) (hK : IsCompact K) (f g : MvPolynomial (Fin n) ℚ) (c : ℚ)
    (h : ∀ x : Fin n → ℝ, polyAt f x = c + polyAt g ((D : ℝ) • x)) :
    (∫ x in (D : ℝ) • K, polyAt g x) / (D : ℝ) ^ n + (volume K).toReal * c = ∫ x in K, polyAt f x := by
  have hDR : (0:ℝ) < D := by exact_mod_cast hD
  rw [integral_dilate n D hDR, mul_comm, mul_div_assoc, div_self (by positivity), mul_one]
  simp only [h]
  rw [integral_add]
  · rw [add_comm, integral_const, smul_eq_mul, measureReal_restrict_apply_univ]
    rfl
  · exact continuous_const.continuousOn.integrableOn_compact hK
  · exact ((polyAt_continuous g).comp (continuous_const_smul _)).continuousOn.integrableOn_compact hK

theorem polytope_isCompact (n : ℕ) (cones : List VCone) : IsCompact (polytope n cones) := by
  have hfin : {x | ∃ c ∈ cones, x = pointR n c.vertex}.Finite := by
    have : {x | ∃ c ∈ cones, x = pointR n c.vertex} = (fun c : VCone => pointR n c.vertex) '' {c | c ∈ cones} := by
      ext x; simp only [mem_ofPred_eq, mem_image]; constructor
      · rintro ⟨r, hr, rfl⟩; exact ⟨r, hr, rfl⟩
      · rintro ⟨r, hr, rfl⟩; exact ⟨r, hr, rfl⟩
    rw [this]
    exact (List.finite_toSet cones).image _
  exact hfin.isCompact_convexHull (𝕜 := ℝ)

theorem volume_dilate (n : ℕ) (t : ℝ) (ht : 0 < t) (K : Set (Fin n → ℝ)) : (volume (t • K)).toReal = t ^ n * (volume K).toReal := by
  rw [Measure.addHaar_smul, ENNReal.toReal_mul, Module.finrank_fin_fun, ENNReal.toReal_ofReal (by positivity), abs_of_pos (by positivity)]

theorem TriangulatesPolytope.dilate {T : ℕ → VCone → List VCone} {n : ℕ} {cones : List VCone} (hT : TriangulatesPolytope T n cones)
    (hv : ∀ c ∈ cones, VertexOk n c.vertex) : TriangulatesDilate T n cones := fun rs h1 h2 =>
  hT rs (fun r hr => ⟨(h1 r hr).1, by rw [(h1 r hr).2]; exact one_pos⟩)
    ⟨dilationFactorVertexRays cones, by exact_mod_cast (dilationFactorVertexRays_spec n cones hv).1, h2⟩

/-- tangent cones: the answer from dilated forms -/
theorem cones_finish (T : ℕ → VCone → List VCone) (n : ℕ) (hn : n < 1000) (cones : List VCone)
    (hv : ∀ c ∈ cones, VertexOk n c.vertex) (hT : TriangulatesDilate T n cones) (fuel rounds : ℕ) (draws draws' : List ℕ)
    (lf : Sum ℚ) (hvar : lf.varCount = n) (c : ℚ) (out : List (Term ℚ))
    (hd : lf.termCount ≠ 0 → drain fuel rounds (begin' lf.trie n) = some out) (h0 : lf.termCount = 0 ↔ out = [])
    (hout : ∀ t ∈ out, 0 < t.degree ∧ t.degree + n < 2 ^ 20) (f : MvPolynomial (Fin n) ℚ)
    (hf : ∀ x : Fin n → ℝ, polyAt f x = c + polyAt (formsPoly n out) ((dilationFactorVertexRays cones : ℝ) • x)) :
    ∃ (v : ℚ) (p' : PV), finish T fuel rounds .triangulation draws draws' (dilationFactorVertexRays cones) lf c
      (dilateVertexRays (ofCones n cones) (dilationFactorVertexRays cones)) = some (v, p') ∧
      (v : ℝ) = (∫ x in polytope n cones, polyAt f x) ∧
      ∃ w : ℚ, (∀ d, findVolume T .triangulation d p' = some (w, p')) ∧
        (w : ℝ) = (dilationFactorVertexRays cones : ℝ) ^ n * (volume (polytope n cones)).toReal := by
  obtain ⟨hD, hdvd⟩ := dilationFactorVertexRays_spec n cones hv
  set D := dilationFactorVertexRays cones with hDdef
  have hDR : (0:ℝ) < D := by exact_mod_cast hD
  set rs := ((cones.map fun c => ({ c with vertex := scalarMul c.vertex D 1 } : VCone)).map fun c => liftVertex c.vertex).reverse with hrsdef
  have hrs : ∀ r ∈ rs, r.length = n + 1 ∧ r.getD n 0 = 1 := by
    intro r hr
    rw [hrsdef, List.mem_reverse, List.map_map] at hr
    obtain ⟨k, hk, rfl⟩ := List.mem_map.1 hr
    obtain ⟨s1, s2, s3⟩ := scalarMul_spec n k.vertex (hv k hk) D hD (hdvd k hk)
    obtain ⟨l1, l2, l3, l4⟩ := liftVertex_spec n _ s1
    exact ⟨l1, by simp only [Function.comp]; rw [l2, s3]⟩
  have hchart : rs.map (chart n) = (cones.map fun c => (D : ℝ) • pointR n c.vertex).reverse := by
    rw [hrsdef, List.map_reverse, List.map_map, List.map_map]
    congr 1
    apply List.map_congr_left
    intro k hk
    obtain ⟨s1, s2, s3⟩ := scalarMul_spec n k.vertex (hv k hk) D hD (hdvd k hk)
    obtain ⟨l1, l2, l3, l4⟩ := liftVertex_spec n _ s1
    simp only [Function.comp]
    rw [l4, s2]
  have hgood : GoodRays n rs := fun r hr => ⟨(hrs r hr).1, by rw [(hrs r hr).2]; exact one_pos⟩
  have hTr := hT rs hrs hchart
  obtain ⟨v, e, hval⟩ := finish_spec T n hn fuel rounds draws draws' D (dilateVertexRays (ofCones n cones) D)
    ⟨n, n + 1, some (cones.map fun c => { c with vertex := scalarMul c.vertex D 1 }), some rs, none⟩ rs (by
      unfold convertToOneCone dilateVertexRays ofCones
      simp
      rw [hrsdef]; simp [List.map_map]) rfl rfl rfl 1 one_pos hrs hTr lf hvar c out hd h0 hout
  refine ⟨v, _, e, ?_, ?_⟩
  · rw [hval, hull_eq_smul n rs cones D hchart, Int.cast_one, one_smul, if_pos (by simp), volume_dilate n D hDR,
      ← undilate n D hD _ (polytope_isCompact n cones) f _ c hf]
    congr 1
    field_simp
  · obtain ⟨w, ew, hw⟩ := volume_value n rs hgood _ hTr
    refine ⟨w, fun d => ?_, ?_⟩
    · unfold findVolume convertToOneCone triangulateOneCone
      simp [ew]
    · rw [hw, hull_eq_smul n rs cones D hchart, volume_dilate n D hDR]

/-- **Specification.** Contract of the triangulation engine for a polytope given by homogeneous points. -/
def TriangulatesPoints (T : ℕ → VCone → List VCone) (n : ℕ) (rays : List (List ℤ)) : Prop :=
  ∀ rs : List (List ℤ), GoodRays n rs → rs.map (chart n) = rays.map (chart n) →
    Triangulates n rs ((T 0 ⟨ofDim (n + 1), rs, 1⟩).map (·.rays))

/-- homogenized polytope: the answer from dilated forms -/
theorem points_finish (T : ℕ → VCone → List VCone) (n : ℕ) (hn : n < 1000) (rays : List (List ℤ))
    (hr : GoodRays n rays) (hT : TriangulatesPoints T n rays) (fuel rounds : ℕ) (draws draws' : List ℕ)
    (lf : Sum ℚ) (hvar : lf.varCount = n) (c : ℚ) (out : List (Term ℚ))
    (hd : lf.termCount ≠ 0 → drain fuel rounds (begin' lf.trie n) = some out) (h0 : lf.termCount = 0 ↔ out = [])
    (hout : ∀ t ∈ out, 0 < t.degree ∧ t.degree + n < 2 ^ 20) (f : MvPolynomial (Fin n) ℚ)
    (hf : ∀ x : Fin n → ℝ, polyAt f x = c + polyAt (formsPoly n out) ((dilationFactorOneCone (n + 1) rays : ℝ) • x)) :
    ∃ (q : PV) (v : ℚ) (p' : PV), dilatePV (ofHomogenized (n + 1) rays) = some (dilationFactorOneCone (n + 1) rays, q) ∧
      finish T fuel rounds .triangulation draws draws' (dilationFactorOneCone (n + 1) rays) lf c q = some (v, p') ∧
      (v : ℝ) = ∫ x in hull n rays, polyAt f x := by
  obtain ⟨hD, hdvd⟩ := dilationFactorOneCone_spec n rays hr
  set D := dilationFactorOneCone (n + 1) rays with hDdef
  obtain ⟨rs, e1, hrs, hchart⟩ := dilateRays_spec n D hD rays hr hdvd
  have hgood : GoodRays n rs := fun r h => ⟨(hrs r h).1, by rw [(hrs r h).2]; exact hD⟩
  have hhull : hull n rs = hull n rays := by rw [hull_eq_image, hchart, ← hull_eq_image]
  obtain ⟨v, e, hval⟩ := finish_spec T n hn fuel rounds draws draws' D ⟨n + 1, n + 1, none, some rs, none⟩
    ⟨n + 1, n + 1, none, some rs, none⟩ rs (by unfold convertToOneCone; simp) rfl rfl rfl D hD hrs (hT rs hgood hchart) lf hvar c out hd h0 hout
  refine ⟨⟨n + 1, n + 1, none, some rs, none⟩, v, _, ?_, e, ?_⟩
  · unfold dilatePV ofHomogenized dilateOneCone
    simp only [ne_eq, not_true, if_false]
    rw [← hDdef, e1]
    rfl
  · rw [hval, if_neg (by simp), hhull, undilate n D hD _ (hull_isCompact n rays) f _ c hf]

/-- C50 together with the state left behind (used for C53). Integrals of polynomials by triangulation, polytope given by its tangent cones. For every dimension below 1000, every
list of rational vertices and every polynomial with pairwise distinct monomials (of degree plus dimension below `2^20`), if the
triangulation engine does its job then the returned rational number is the Lebesgue integral of the polynomial over the convex hull
of the vertices. -/
theorem integral_polynomial_full (T : ℕ → VCone → List VCone) (n : ℕ) (hn0 : 0 < n) (hn : n < 1000) (cones : List VCone)
    (hv : ∀ c ∈ cones, VertexOk n c.vertex) (hT : TriangulatesDilate T n cones)
    (xs : List (Term ℚ)) (hx : PolyIn n xs) (hdeg : ∀ x ∈ xs, x.exps.sum + n < 2 ^ 20) :
    ∃ (poly : Sum ℚ) (r : ℚ) (N : ℕ), insertAll (emptySum ℚ n) xs = some poly ∧
      (∀ fuel rounds, N ≤ fuel → N ≤ rounds → ∀ draws draws', ∃ p',
        findIntegralPoly T fuel rounds .triangulation draws draws' poly (ofCones n cones) = some (r, p') ∧
        ∃ w : ℚ, (∀ d, findVolume T .triangulation d p' = some (w, p')) ∧
          (w : ℝ) = (dilationFactorVertexRays cones : ℝ) ^ n * (volume (polytope n cones)).toReal) ∧
      (r : ℝ) = ∫ x in polytope n cones, polyAt (monoPoly n xs) x := by
  obtain ⟨hD, _⟩ := dilationFactorVertexRays_spec n cones hv
  obtain ⟨poly, lf, c, out, N, e, d, hvar, h0, hout, hval⟩ := dilatePolynomial_spec n hn0 xs hx (dilationFactorVertexRays cones) hD.ne'
  have hout' : ∀ t ∈ out, 0 < t.degree ∧ t.degree + n < 2 ^ 20 := by
    intro t ht
    obtain ⟨a, _, x, hx', hd⟩ := hout t ht
    exact ⟨a, by rw [hd]; exact hdeg x hx'⟩
  have key := fun fuel rounds h1 h2 draws draws' => cones_finish T n hn cones hv hT fuel rounds draws draws' lf hvar c out
    (d fuel rounds h1 h2).2 h0 hout' (monoPoly n xs) hval
  obtain ⟨r, _, _, hr, _⟩ := key N N le_rfl le_rfl [] []
  refine ⟨poly, r, N, e, fun fuel rounds h1 h2 draws draws' => ?_, hr⟩
  obtain ⟨r', p', e', hr', hw⟩ := key fuel rounds h1 h2 draws draws'
  have hrr : r' = r := by
    have : (r' : ℝ) = (r : ℝ) := by rw [hr, hr']
    exact_mod_cast this
  subst hrr
  refine ⟨p', ?_, hw⟩
  unfold findIntegralPoly
  have hdil : dilatePV (ofCones n cones) = some (dilationFactorVertexRays cones, dilateVertexRays (ofCones n cones) (dilationFactorVertexRays cones)) := by
    unfold dilatePV ofCones; simp
  rw [hdil, Option.bind_some]
  simp only
  rw [(d fuel rounds h1 h2).1, Option.bind_some]
  exact e'

/-- **C50.** Integrals of polynomials by triangulation, polytope given by its tangent cones. For every dimension below 1000, every
list of rational vertices and every polynomial with pairwise distinct monomials (of degree plus dimension below `2^20`), if the
triangulation engine does its job then the returned rational number is the Lebesgue integral of the polynomial over the convex hull
of the vertices. -/
theorem c50_integral_polynomial (T : ℕ → VCone → List VCone) (n : ℕ) (hn0 : 0 < n) (hn : n < 1000) (cones : List VCone)
    (hv : ∀ c ∈ cones, VertexOk n c.vertex) (hT : TriangulatesPolytope T n cones)
    (xs : List (Term ℚ)) (hx : PolyIn n xs) (hdeg : ∀ x ∈ xs, x.exps.sum + n < 2 ^ 20) :
    ∃ (poly : Sum ℚ) (r : ℚ) (N : ℕ), insertAll (emptySum ℚ n) xs = some poly ∧
      (∀ fuel rounds, N ≤ fuel → N ≤ rounds → ∀ draws draws', ∃ p',
        findIntegralPoly T fuel rounds .triangulation draws draws' poly (ofCones n cones) = some (r, p')) ∧
      (r : ℝ) = ∫ x in polytope n cones, polyAt (monoPoly n xs) x := by
  obtain ⟨poly, r, N, e, h, hr⟩ := integral_polynomial_full T n hn0 hn cones hv (hT.dilate hv) xs hx hdeg
  refine ⟨poly, r, N, e, fun fuel rounds h1 h2 draws draws' => ?_, hr⟩
  obtain ⟨p', hp, _⟩ := h fuel rounds h1 h2 draws draws'
  exact ⟨p', hp⟩

/-- C50 for sums of powers of linear forms, with the weaker contract. -/
theorem integral_forms_dilate (T : ℕ → VCone → List VCone) (n : ℕ) (hn0 : 0 < n) (hn : n < 1000) (cones : List VCone)
    (hv : ∀ c ∈ cones, VertexOk n c.vertex) (hT : TriangulatesDilate T n cones)
    (xs : List (Term ℚ)) (hx : FormsIn n xs) (hdeg : ∀ x ∈ xs, x.degree + n < 2 ^ 20) :
    ∃ (forms : Sum ℚ) (r : ℚ) (N : ℕ), insertAll (emptySum ℚ n) xs = some forms ∧
      (∀ fuel rounds, N ≤ fuel → N ≤ rounds → ∀ draws draws', ∃ p',
        findIntegralForms T fuel rounds .triangulation draws draws' forms (ofCones n cones) = some (r, p')) ∧
      (r : ℝ) = ∫ x in polytope n cones, polyAt (formsPoly n xs) x := by
  obtain ⟨hD, _⟩ := dilationFactorVertexRays_spec n cones hv
  obtain ⟨forms, lf, c, out, N, e, d, hvar, h0, hout, hval⟩ := dilateLinearForms_spec n hn0 xs hx (dilationFactorVertexRays cones) hD.ne'
  have hout' : ∀ t ∈ out, 0 < t.degree ∧ t.degree + n < 2 ^ 20 := by
    intro t ht
    obtain ⟨a, _, x, hx', hd⟩ := hout t ht
    exact ⟨a, by rw [hd]; exact hdeg x hx'⟩
  have key := fun fuel rounds h1 h2 draws draws' => cones_finish T n hn cones hv hT fuel rounds draws draws' lf hvar c out
    (d fuel rounds h1 h2).2 h0 hout' (formsPoly n xs) hval
  obtain ⟨r, _, _, hr, _⟩ := key N N le_rfl le_rfl [] []
  refine ⟨forms, r, N, e, fun fuel rounds h1 h2 draws draws' => ?_, hr⟩
  obtain ⟨r', p', e', hr', hw⟩ := key fuel rounds h1 h2 draws draws'
  have hrr : r' = r := by
    have : (r' : ℝ) = (r : ℝ) := by rw [hr, hr']
    exact_mod_cast this
  subst hrr
  refine ⟨p', ?_⟩
  unfold findIntegralForms
  have hdil : dilatePV (ofCones n cones) = some (dilationFactorVertexRays cones, dilateVertexRays (ofCones n cones) (dilationFactorVertexRays cones)) := by
    unfold dilatePV ofCones; simp
  rw [hdil, Option.bind_some]
  simp only
  rw [(d fuel rounds h1 h2).1, Option.bind_some]
  exact e'

/-- **C50**, sums of powers of linear forms. -/
theorem c50_integral_forms (T : ℕ → VCone → List VCone) (n : ℕ) (hn0 : 0 < n) (hn : n < 1000) (cones : List VCone)
    (hv : ∀ c ∈ cones, VertexOk n c.vertex) (hT : TriangulatesPolytope T n cones)
    (xs : List (Term ℚ)) (hx : FormsIn n xs) (hdeg : ∀ x ∈ xs, x.degree + n < 2 ^ 20) :
    ∃ (forms : Sum ℚ) (r : ℚ) (N : ℕ), insertAll (emptySum ℚ n) xs = some forms ∧
      (∀ fuel rounds, N ≤ fuel → N ≤ rounds → ∀ draws draws', ∃ p',
        findIntegralForms T fuel rounds .triangulation draws draws' forms (ofCones n cones) = some (r, p')) ∧
      (r : ℝ) = ∫ x in polytope n cones, polyAt (formsPoly n xs) x :=
  integral_forms_dilate T n hn0 hn cones hv (hT.dilate hv) xs hx hdeg

/-- **C50**, polytope given by homogeneous points (one cone). -/
theorem c50_integral_polynomial_homogenized (T : ℕ → VCone → List VCone) (n : ℕ) (hn0 : 0 < n) (hn : n < 1000) (rays : List (List ℤ))
    (hr : GoodRays n rays) (hT : TriangulatesPoints T n rays)
    (xs : List (Term ℚ)) (hx : PolyIn n xs) (hdeg : ∀ x ∈ xs, x.exps.sum + n < 2 ^ 20) :
    ∃ (poly : Sum ℚ) (r : ℚ) (N : ℕ), insertAll (emptySum ℚ n) xs = some poly ∧
      (∀ fuel rounds, N ≤ fuel → N ≤ rounds → ∀ draws draws', ∃ p',
        findIntegralPoly T fuel rounds .triangulation draws draws' poly (ofHomogenized (n + 1) rays) = some (r, p')) ∧
      (r : ℝ) = ∫ x in hull n rays, polyAt (monoPoly n xs) x := by
  obtain ⟨hD, _⟩ := dilationFactorOneCone_spec n rays hr
  obtain ⟨poly, lf, c, out, N, e, d, hvar, h0, hout, hval⟩ := dilatePolynomial_spec n hn0 xs hx (dilationFactorOneCone (n + 1) rays) hD.ne'
  have hout' : ∀ t ∈ out, 0 < t.degree ∧ t.degree + n < 2 ^ 20 := by
    intro t ht
    obtain ⟨a, _, x, hx', hd⟩ := hout t ht
    exact ⟨a, by rw [hd]; exact hdeg x hx'⟩
  have key := fun fuel rounds h1 h2 draws draws' => points_finish T n hn rays hr hT fuel rounds draws draws' lf hvar c out
    (d fuel rounds h1 h2).2 h0 hout' (monoPoly n xs) hval
  obtain ⟨_, r, _, _, _, hr⟩ := key N N le_rfl le_rfl [] []
  refine ⟨poly, r, N, e, fun fuel rounds h1 h2 draws draws' => ?_, hr⟩
  obtain ⟨q, r', p', eq, e', hr'⟩ := key fuel rounds h1 h2 draws draws'
  have hrr : r' = r := by
    have : (r' : ℝ) = (r : ℝ) := by rw [hr, hr']
    exact_mod_cast this
  subst hrr
  refine ⟨p', ?_⟩
  unfold findIntegralPoly
  rw [eq, Option.bind_some]
  simp only
  rw [(d fuel rounds h1 h2).1, Option.bind_some]
  exact e'

/-- **C51.** Volume by triangulation, polytope given by its tangent cones: the returned number is the Lebesgue volume. -/
theorem c51_volume (T : ℕ → VCone → List VCone) (n : ℕ) (cones : List VCone) (hv : ∀ c ∈ cones, VertexOk n c.vertex)
    (hT : TriangulatesPolytope T n cones) (draws : List ℕ) :
    ∃ (r : ℚ) (p' : PV), findVolume T .triangulation draws (ofCones n cones) = some (r, p') ∧
      (r : ℝ) = (volume (polytope n cones)).toReal := by
  set rs := (cones.map fun c => liftVertex c.vertex).reverse with hrsdef
  have hgood : GoodRays n rs := by
    intro r hr
    rw [hrsdef, List.mem_reverse] at hr
    obtain ⟨k, hk, rfl⟩ := List.mem_map.1 hr
    obtain ⟨l1, l2, l3, l4⟩ := liftVertex_spec n _ (hv k hk)
    exact ⟨l1, l3⟩
  have hchart : rs.map (chart n) = (cones.map fun c => (1 : ℝ) • pointR n c.vertex).reverse := by
    rw [hrsdef, List.map_reverse, List.map_map]
    congr 1
    apply List.map_congr_left
    intro k hk
    obtain ⟨l1, l2, l3, l4⟩ := liftVertex_spec n _ (hv k hk)
    simp only [Function.comp]
    rw [l4, one_smul]
  obtain ⟨v, e, hval⟩ := volume_value n rs hgood _ (hT rs hgood ⟨1, one_pos, hchart⟩)
  refine ⟨v, ⟨n, n + 1, some cones, some rs, some (T 0 ⟨ofDim (n + 1), rs, 1⟩)⟩, ?_, ?_⟩
  · unfold findVolume
    simp only
    have h1 : convertToOneCone (ofCones n cones) = some ⟨n, n + 1, some cones, some rs, none⟩ := by
      unfold convertToOneCone ofCones; simp [hrsdef]
    rw [h1, Option.bind_some]
    have h2 : triangulateOneCone T ⟨n, n + 1, some cones, some rs, none⟩ =
        some ⟨n, n + 1, some cones, some rs, some (T 0 ⟨ofDim (n + 1), rs, 1⟩)⟩ := by
      unfold triangulateOneCone; simp
    rw [h2, Option.bind_some]
    simp only [Option.getD_some]
    rw [e, Option.map_some]
  · rw [hval, hull_eq_smul n rs cones 1 hchart, one_smul]

/-- **C51**, polytope given by homogeneous points. -/
theorem c51_volume_homogenized (T : ℕ → VCone → List VCone) (n : ℕ) (rays : List (List ℤ)) (hr : GoodRays n rays)
    (hT : TriangulatesPoints T n rays) (draws : List ℕ) :
    ∃ (r : ℚ) (p' : PV), findVolume T .triangulation draws (ofHomogenized (n + 1) rays) = some (r, p') ∧
      (r : ℝ) = (volume (hull n rays)).toReal := by
  obtain ⟨v, e, hval⟩ := volume_value n rays hr _ (hT rays hr rfl)
  refine ⟨v, ⟨n + 1, n + 1, none, some rays, some (T 0 ⟨ofDim (n + 1), rays, 1⟩)⟩, ?_, hval⟩
  unfold findVolume
  simp only
  have h1 : convertToOneCone (ofHomogenized (n + 1) rays) = some (ofHomogenized (n + 1) rays) := by
    unfold convertToOneCone ofHomogenized; simp
  rw [h1, Option.bind_some]
  have h2 : triangulateOneCone T (ofHomogenized (n + 1) rays) =
      some ⟨n + 1, n + 1, none, some rays, some (T 0 ⟨ofDim (n + 1), rays, 1⟩)⟩ := by
    unfold triangulateOneCone ofHomogenized; simp
  rw [h2, Option.bind_some]
  simp only [Option.getD_some]
  rw [e, Option.map_some]

/-! ### non-vacuity -/

/-- the engine that returns its argument is correct for simplices -/
theorem triangulates_simplex (n : ℕ) (cones : List VCone) (h : cones.length = n + 1) :
    TriangulatesPolytope (fun _ c => [c]) n cones := by
  intro rs _ ⟨t, _, hc⟩
  have hl : rs.length = n + 1 := by
    have := congrArg List.length hc
    simpa [h] using this
  refine ⟨by simp [hl], by simp, by simp, by simp⟩

/-- a triangle with vertices (0,0), (1/2,0), (0,1/3) -/
def exTriangle : List VCone :=
  [⟨ofEntries [(0, 1), (0, 1)], [], 1⟩, ⟨ofEntries [(1, 2), (0, 1)], [], 1⟩, ⟨ofEntries [(0, 1), (1, 3)], [], 1⟩]

/-- x² y + 3 -/
def exPoly : List (Term ℚ) := [⟨1, [2, 1], -1⟩, ⟨3, [0, 0], -1⟩]

/-- C50 and C51 apply to the triangle and the polynomial; the integral is 3/12 + 1/2160... as computed by the model. -/
example : (∀ c ∈ exTriangle, VertexOk 2 c.vertex) ∧ TriangulatesPolytope (fun _ c => [c]) 2 exTriangle ∧ PolyIn 2 exPoly ∧
    (∀ x ∈ exPoly, x.exps.sum + 2 < 2 ^ 20) := by
  refine ⟨?_, triangulates_simplex 2 _ rfl, ⟨by decide, ?_, by decide⟩, by decide⟩
  · intro c hc
    simp only [exTriangle, List.mem_cons, List.not_mem_nil, or_false] at hc
    rcases hc with rfl | rfl | rfl <;>
      exact ⟨rfl, by decide, fun h => by simp [ofEntries] at h, fun h => by simp [ofEntries] at h⟩
  · intro x hx
    simp only [exPoly, List.mem_cons, List.not_mem_nil, or_false] at hx
    rcases hx with rfl | rfl <;> exact ⟨by norm_num, rfl, rfl, by decide⟩

end Verif.Valuation
