import Verif.Products.Dilate

/-! C80: integrals of sums of products of powers of linear forms over a polytope. -/

namespace Verif.Products

open MeasureTheory Set Verif.Trie Verif.Measure Verif.Valuation Latte.RatVec
open scoped Pointwise

/-! ### one simplex -/

theorem simplexOf_some (n : ℕ) (c : List (List ℤ)) (hc : c.length = n + 1) : ∃ S, simplexOf n (n + 1) c = some S := by
  unfold simplexOf; rw [if_pos ⟨hc, rfl⟩]; exact ⟨_, rfl⟩

/-- one simplex: the integral, if it is not zero -/
theorem simplex_product (n : ℕ) (c : List (List ℤ)) (hc : c.length = n + 1) (a : ℤ) (ha : 0 < a) (hl : ∀ r ∈ c, r.getD n 0 = a)
    (fs : List (Term ℚ)) (hfs : fs ≠ []) (hlen : ∀ t ∈ fs, t.exps.length = n)
    (h0 : (∫ x in (a : ℝ) • hull n c, polyAt (prodPoly n fs) x) ≠ 0) :
    ∃ S q K, simplexOf n (n + 1) c = some S ∧
      (∀ fuel rounds, K ≤ fuel → K ≤ rounds → integrateProducts fuel rounds S fs.length fs = some q) ∧
      (q : ℝ) = ∫ x in (a : ℝ) • hull n c, polyAt (prodPoly n fs) x := by
  obtain ⟨S, hS⟩ := simplexOf_some n c hc
  have hv := value_integral n c S hS fs hlen
  rw [corners_hull n c hc a ha.ne' hl] at hv
  obtain ⟨K, hK⟩ := integrateProducts_eq n c S hS fs hfs
  refine ⟨S, _, K, hS, fun fuel rounds h1 h2 => ?_, hv⟩
  rw [hK fuel rounds h1 h2, if_neg]
  intro hk
  apply h0
  rw [← hv, hk]
  simp

/-- one simplex of positive volume: an integral zero stops the program -/
theorem simplex_product_zero (n : ℕ) (c : List (List ℤ)) (hc : c.length = n + 1) (a : ℤ) (ha : 0 < a) (hl : ∀ r ∈ c, r.getD n 0 = a)
    (fs : List (Term ℚ)) (hfs : fs ≠ []) (hlen : ∀ t ∈ fs, t.exps.length = n ∧ t.coef ≠ 0) (hvol : volume (hull n c) ≠ 0)
    (h0 : (∫ x in (a : ℝ) • hull n c, polyAt (prodPoly n fs) x) = 0) :
    ∃ S K, simplexOf n (n + 1) c = some S ∧
      (∀ fuel rounds, K ≤ fuel → K ≤ rounds → integrateProducts fuel rounds S fs.length fs = none) := by
  obtain ⟨S, hS⟩ := simplexOf_some n c hc
  have haR : (0:ℝ) < a := by exact_mod_cast ha
  have hv := value_integral n c S hS fs (fun t ht => (hlen t ht).1)
  have hv1 := value_integral n c S hS [] (by simp)
  rw [corners_hull n c hc a ha.ne' hl] at hv hv1
  have hpos : (volume ((a : ℝ) • hull n c)).toReal ≠ 0 := by
    rw [volume_dilate n a haR]
    apply mul_ne_zero (by positivity)
    rw [ENNReal.toReal_ne_zero]
    exact ⟨hvol, (hull_isCompact n c).measure_ne_top⟩
  have hone : (∫ x in (a : ℝ) • hull n c, polyAt (prodPoly n []) x) = (volume ((a : ℝ) • hull n c)).toReal := by
    simp [prodPoly, polyAt, Measure.real]
  rw [hone] at hv1
  have hSv : (S.v : ℚ) ≠ 0 := by
    intro h
    apply hpos
    rw [← hv1, scaleOf, h]
    simp
  have hsc : scaleOf S.v n fs ≠ 0 := by
    unfold scaleOf
    apply div_ne_zero (mul_ne_zero _ hSv) (by exact_mod_cast Nat.factorial_ne_zero _)
    intro h
    rw [List.prod_eq_zero_iff] at h
    obtain ⟨t, ht, h⟩ := List.mem_map.1 h
    exact (hlen t ht).2 h
  obtain ⟨K, hK⟩ := integrateProducts_eq n c S hS fs hfs
  refine ⟨S, K, hS, fun fuel rounds h1 h2 => ?_⟩
  rw [hK fuel rounds h1 h2, if_pos]
  rw [h0] at hv
  have : scaleOf S.v n fs * kappa n c fs = 0 := by exact_mod_cast hv
  exact (mul_eq_zero.1 this).resolve_left hsc

/-! ### the loop over the simplices -/

theorem simplexLoopP_spec (n : ℕ) (a : ℤ) (ha : 0 < a) (fs : List (Term ℚ)) (hfs : fs ≠ []) (hlen : ∀ t ∈ fs, t.exps.length = n)
    (cs : List VCone) (h : ∀ c ∈ cs, c.rays.length = n + 1 ∧ ∀ r ∈ c.rays, r.getD n 0 = a)
    (h0 : ∀ c ∈ cs, (∫ x in (a : ℝ) • hull n c.rays, polyAt (prodPoly n fs) x) ≠ 0) :
    ∃ K, ∀ fuel rounds, K ≤ fuel → K ≤ rounds → ∀ s : ℚ, ∃ v : ℚ, simplexLoopP fuel rounds n (n + 1) fs.length fs cs s = some v ∧
      (v : ℝ) = s + (cs.map fun c => ∫ x in (a : ℝ) • hull n c.rays, polyAt (prodPoly n fs) x).sum := by
  induction cs with
  | nil => exact ⟨0, fun _ _ _ _ s => ⟨s, rfl, by simp⟩⟩
  | cons c cs ih =>
    obtain ⟨S, q, K1, e1, e2, hq⟩ := simplex_product n c.rays (h c (by simp)).1 a ha (h c (by simp)).2 fs hfs hlen (h0 c (by simp))
    obtain ⟨K2, hK2⟩ := ih (fun k hk => h k (by simp [hk])) (fun k hk => h0 k (by simp [hk]))
    refine ⟨max K1 K2, fun fuel rounds h1 h2 s => ?_⟩
    obtain ⟨v, e, hv⟩ := hK2 fuel rounds (by omega) (by omega) (s + q)
    refine ⟨v, ?_, ?_⟩
    · rw [simplexLoopP, e1, Option.bind_some, e2 fuel rounds (by omega) (by omega), Option.bind_some]; exact e
    · rw [hv, List.map_cons, List.sum_cons, ← hq]; push_cast; ring

theorem simplexLoopP_zero (n : ℕ) (a : ℤ) (ha : 0 < a) (fs : List (Term ℚ)) (hfs : fs ≠ [])
    (hlen : ∀ t ∈ fs, t.exps.length = n ∧ t.coef ≠ 0) (c : VCone) (h : c.rays.length = n + 1 ∧ ∀ r ∈ c.rays, r.getD n 0 = a)
    (hvol : volume (hull n c.rays) ≠ 0) (h0 : (∫ x in (a : ℝ) • hull n c.rays, polyAt (prodPoly n fs) x) = 0) :
    ∃ K, ∀ fuel rounds, K ≤ fuel → K ≤ rounds → ∀ (cs : List VCone), c ∈ cs → ∀ s : ℚ,
      simplexLoopP fuel rounds n (n + 1) fs.length fs cs s = none := by
  obtain ⟨S, K, e1, e2⟩ := simplex_product_zero n c.rays h.1 a ha h.2 fs hfs hlen hvol h0
  refine ⟨K, fun fuel rounds h1 h2 cs => ?_⟩
  induction cs with
  | nil => intro hc; simp at hc
  | cons k cs ih =>
    intro hc s
    rw [simplexLoopP]
    rcases List.mem_cons.1 hc with rfl | hc
    · rw [e1, Option.bind_some, e2 fuel rounds h1 h2, Option.bind_none]
    · cases simplexOf n (n + 1) k.rays with
      | none => rfl
      | some S' =>
        rw [Option.bind_some]
        cases integrateProducts fuel rounds S' fs.length fs with
        | none => rfl
        | some q => rw [Option.bind_some]; exact ih hc _

/-- the sum over the simplices of a triangulation is the integral over the dilated polytope -/
theorem simplexLoopP_triangulated (n : ℕ) (a : ℤ) (ha : 0 < a) (fs : List (Term ℚ)) (hfs : fs ≠ []) (hlen : ∀ t ∈ fs, t.exps.length = n)
    (rs : List (List ℤ)) (hrs : ∀ r ∈ rs, r.getD n 0 = a) (cs : List VCone) (h : Triangulates n rs (cs.map (·.rays)))
    (h0 : ∀ c ∈ cs, (∫ x in (a : ℝ) • hull n c.rays, polyAt (prodPoly n fs) x) ≠ 0) :
    ∃ K, ∀ fuel rounds, K ≤ fuel → K ≤ rounds → ∃ v : ℚ, simplexLoopP fuel rounds n (n + 1) fs.length fs cs 0 = some v ∧
      (v : ℝ) = ∫ x in (a : ℝ) • hull n rs, polyAt (prodPoly n fs) x := by
  have haR : (0:ℝ) < a := by exact_mod_cast ha
  obtain ⟨K, hK⟩ := simplexLoopP_spec n a ha fs hfs hlen cs (fun c hc =>
    ⟨h.size _ (List.mem_map.2 ⟨c, hc, rfl⟩), fun r hr => hrs r (h.sub _ (List.mem_map.2 ⟨c, hc, rfl⟩) r hr)⟩) h0
  refine ⟨K, fun fuel rounds h1 h2 => ?_⟩
  obtain ⟨v, e, hv⟩ := hK fuel rounds h1 h2 0
  refine ⟨v, e, ?_⟩
  rw [hv, integral_dilate n a haR, h.cover, integral_triangulated n (fun x => polyAt (prodPoly n fs) ((a:ℝ) • x))
    ((polyAt_continuous _).comp (continuous_const_smul _)) _ h.overlap, ← List.sum_map_mul_left, List.map_map]
  rw [Rat.cast_zero, zero_add]
  congr 1
  apply List.map_congr_left
  intro c _
  rw [integral_dilate n a haR]
  rfl

/-! ### several products -/

/-- a dilated product and the factors it delivers -/
structure Ready (n N : ℕ) (x : Sum ℚ × List (Term ℚ)) : Prop where
  var : x.1.varCount = n
  count : x.1.termCount = x.2.length
  ne : x.2 ≠ []
  term : ∀ t ∈ x.2, t.exps.length = n ∧ t.coef ≠ 0
  drain : ∀ fuel rounds, N ≤ fuel → N ≤ rounds → Verif.Trie.drain fuel rounds (begin' x.1.trie n) = some x.2

theorem Ready.mono {n N N' : ℕ} {x : Sum ℚ × List (Term ℚ)} (h : Ready n N x) (hN : N ≤ N') : Ready n N' x :=
  ⟨h.var, h.count, h.ne, h.term, fun fuel rounds h1 h2 => h.drain fuel rounds (by omega) (by omega)⟩

theorem sumProducts_spec (n : ℕ) (p : PV) (hp : p.numOfVarsOneCone = n + 1) (rs : List (List ℤ)) (a : ℤ) (ha : 0 < a)
    (hrs : ∀ r ∈ rs, r.getD n 0 = a) (cs : List VCone) (htri : p.tri = some cs) (hT : Triangulates n rs (cs.map (·.rays)))
    (N : ℕ) (prs : List (Sum ℚ × List (Term ℚ))) (hprs : ∀ x ∈ prs, Ready n N x)
    (h0 : ∀ x ∈ prs, ∀ c ∈ cs, (∫ y in (a : ℝ) • hull n c.rays, polyAt (prodPoly n x.2) y) ≠ 0) :
    ∃ K, ∀ fuel rounds, K ≤ fuel → K ≤ rounds → ∀ s : ℚ, ∃ v : ℚ, sumProducts fuel rounds p (prs.map (·.1)) s = some v ∧
      (v : ℝ) = s + (prs.map fun x => ∫ y in (a : ℝ) • hull n rs, polyAt (prodPoly n x.2) y).sum := by
  induction prs with
  | nil => exact ⟨0, fun _ _ _ _ s => ⟨s, rfl, by simp⟩⟩
  | cons x prs ih =>
    have hx := hprs x (by simp)
    obtain ⟨K1, hK1⟩ := simplexLoopP_triangulated n a ha x.2 hx.ne (fun t ht => (hx.term t ht).1) rs hrs cs hT (h0 x (by simp))
    obtain ⟨K2, hK2⟩ := ih (fun y hy => hprs y (by simp [hy])) (fun y hy => h0 y (by simp [hy]))
    refine ⟨max N (max K1 K2), fun fuel rounds h1 h2 s => ?_⟩
    obtain ⟨w, e, hw⟩ := hK1 fuel rounds (by omega) (by omega)
    obtain ⟨v, e', hv⟩ := hK2 fuel rounds (by omega) (by omega) (s + w)
    refine ⟨v, ?_, ?_⟩
    · rw [List.map_cons, sumProducts]
      unfold productTriangulation
      rw [if_neg (by rw [hx.count]; exact (List.length_pos_of_ne_nil hx.ne).ne'), hx.var, hx.drain fuel rounds (by omega) (by omega),
        Option.bind_some, hp, htri, hx.count]
      simp only [Nat.add_sub_cancel, Option.getD_some]
      rw [e, Option.bind_some]
      exact e'
    · rw [hv, List.map_cons, List.sum_cons, ← hw]; push_cast; ring

theorem sumProducts_zero (n : ℕ) (p : PV) (hp : p.numOfVarsOneCone = n + 1) (a : ℤ) (ha : 0 < a)
    (cs : List VCone) (htri : p.tri = some cs) (hcs : ∀ c ∈ cs, c.rays.length = n + 1 ∧ ∀ r ∈ c.rays, r.getD n 0 = a)
    (N : ℕ) (prs : List (Sum ℚ × List (Term ℚ))) (hprs : ∀ x ∈ prs, Ready n N x) (x : Sum ℚ × List (Term ℚ)) (hx : x ∈ prs)
    (c : VCone) (hc : c ∈ cs) (hvol : volume (hull n c.rays) ≠ 0)
    (h0 : (∫ y in (a : ℝ) • hull n c.rays, polyAt (prodPoly n x.2) y) = 0) :
    ∃ K, ∀ fuel rounds, K ≤ fuel → K ≤ rounds → ∀ s : ℚ, sumProducts fuel rounds p (prs.map (·.1)) s = none := by
  have hxr := hprs x hx
  obtain ⟨K, hK⟩ := simplexLoopP_zero n a ha x.2 hxr.ne hxr.term c (hcs c hc) hvol h0
  refine ⟨max N K, fun fuel rounds h1 h2 => ?_⟩
  clear hprs
  induction prs with
  | nil => simp at hx
  | cons y prs ih =>
    intro s
    rw [List.map_cons, sumProducts]
    rcases List.mem_cons.1 hx with rfl | hx
    · unfold productTriangulation
      rw [if_neg (by rw [hxr.count]; exact (List.length_pos_of_ne_nil hxr.ne).ne'), hxr.var, hxr.drain fuel rounds (by omega) (by omega),
        Option.bind_some, hp, htri, hxr.count]
      simp only [Nat.add_sub_cancel, Option.getD_some]
      rw [hK fuel rounds (by omega) (by omega) cs hc, Option.bind_none]
    · cases productTriangulation fuel rounds p y.1 with
      | none => rfl
      | some q => rw [Option.bind_some]; exact ih hx _

/-- **Specification.** A usable product: non-constant, or a single constant. -/
def Usable (n : ℕ) (p : Prod') : Prop := Proper n p ∨ Constant n p

/-- **Specification.** The integrand: the sum of the products. -/
noncomputable def integrand (n : ℕ) (ps : List Prod') : MvPolynomial (Fin n) ℚ := (ps.map (productPoly n)).sum

theorem polyAt_integrand (n : ℕ) (ps : List Prod') (x : Fin n → ℝ) : polyAt (integrand n ps) x = (ps.map fun p => polyAt (productPoly n p) x).sum := by
  unfold integrand
  induction ps with
  | nil => simp [polyAt]
  | cons p ps ih => rw [List.map_cons, List.sum_cons, List.map_cons, List.sum_cons, polyAt_add, ih]

/-- a product and what is left of it after dilation -/
def Comes (n : ℕ) (D : ℤ) (x : Sum ℚ × List (Term ℚ)) (p : Prod') : Prop :=
  ∃ e : ℕ, (∀ y, polyAt (prodPoly n x.2) y = polyAt (productPoly n p) y / (D : ℝ) ^ e) ∧
    ∀ (a : ℝ) y, polyAt (productPoly n p) (a • y) = a ^ e * polyAt (productPoly n p) y

theorem dilateProducts_spec (n : ℕ) (hn : 0 < n) (D : ℤ) (hD : D ≠ 0) (ps : List Prod') (hps : ∀ p ∈ ps, Usable n p) :
    ∃ (ss : List (Sum ℚ)) (prs : List (Sum ℚ × List (Term ℚ))) (c : ℚ) (N : ℕ),
      (ps.mapM fun p => loadProduct n p.1 p.2) = some ss ∧ (∀ x ∈ prs, Ready n N x) ∧
      (∀ fuel rounds, N ≤ fuel → N ≤ rounds → ∀ s, dilateProducts fuel rounds D ss s = some (prs.map (·.1), s + c)) ∧
      (∀ x : Fin n → ℝ, polyAt (integrand n ps) x = c + (prs.map fun y => polyAt (prodPoly n y.2) ((D : ℝ) • x)).sum) ∧
      (∀ y ∈ prs, ∃ p ∈ ps, Proper n p ∧ Comes n D y p) ∧ (∀ p ∈ ps, Proper n p → ∃ y ∈ prs, Comes n D y p) := by
  have hD' : (D : ℝ) ≠ 0 := by exact_mod_cast hD
  induction ps with
  | nil => exact ⟨[], [], 0, 0, rfl, by simp, by simp [dilateProducts], by simp [integrand, polyAt], by simp, by simp⟩
  | cons p ps ih =>
    obtain ⟨ss, prs, c, N, h1, h2, h3, h4, h5, h6⟩ := ih (fun q hq => hps q (by simp [hq]))
    by_cases hpp : Proper n p
    · obtain ⟨s, lf, out, N', e1, e2, e3, e4, e5, e6, ⟨e, e7, e8⟩⟩ := dilate_proper n hn p hpp D hD
      refine ⟨s :: ss, (lf, out) :: prs, c, max N N', ?_, ?_, ?_, ?_, ?_, ?_⟩
      · rw [List.mapM_cons, e1, h1]; rfl
      · intro x hx
        rcases List.mem_cons.1 hx with rfl | hx
        · exact ⟨e2, e3, e4, e5, fun fuel rounds a b => (e6 fuel rounds (by omega) (by omega)).2⟩
        · exact (h2 x hx).mono (by omega)
      · intro fuel rounds a b s'
        rw [dilateProducts, (e6 fuel rounds (by omega) (by omega)).1, Option.bind_some, if_neg (by simp), if_neg (by simp),
          h3 fuel rounds (by omega) (by omega), Option.map_some, List.map_cons]
      · intro x
        have := h4 x
        rw [polyAt_integrand] at this ⊢
        rw [List.map_cons, List.sum_cons, this, List.map_cons, List.sum_cons, e7, e8]
        field_simp
        ring
      · intro y hy
        rcases List.mem_cons.1 hy with rfl | hy
        · exact ⟨p, by simp, hpp, e, e7, e8⟩
        · obtain ⟨q, hq, hh⟩ := h5 y hy
          exact ⟨q, by simp [hq], hh⟩
      · intro q hq hqp
        rcases List.mem_cons.1 hq with rfl | hq
        · exact ⟨(lf, out), by simp, e, e7, e8⟩
        · obtain ⟨y, hy, hh⟩ := h6 q hq hqp
          exact ⟨y, by simp [hy], hh⟩
    · have hpc : Constant n p := (hps p (by simp)).resolve_left hpp
      obtain ⟨s, N', e1, e2, e3⟩ := dilate_constant n hn p hpc D
      refine ⟨s :: ss, prs, p.1 + c, max N N', ?_, ?_, ?_, ?_, ?_, ?_⟩
      · rw [List.mapM_cons, e1, h1]; rfl
      · intro x hx
        exact (h2 x hx).mono (by omega)
      · intro fuel rounds a b s'
        rw [dilateProducts, e2 fuel rounds (by omega) (by omega), Option.bind_some, if_neg (by simp), if_pos hpc.1,
          h3 fuel rounds (by omega) (by omega), add_assoc]
      · intro x
        have := h4 x
        rw [polyAt_integrand] at this ⊢
        rw [List.map_cons, List.sum_cons, this, e3]
        push_cast
        ring
      · intro y hy
        obtain ⟨q, hq, hh⟩ := h5 y hy
        exact ⟨q, by simp [hq], hh⟩
      · intro q hq hqp
        rcases List.mem_cons.1 hq with rfl | hq
        · exact absurd hqp hpp
        · exact h6 q hq hqp

theorem comes_integral (n : ℕ) (D : ℤ) (hD : 0 < D) (x : Sum ℚ × List (Term ℚ)) (p : Prod') (h : Comes n D x p) (a : ℤ) (ha : 0 < a)
    (K : Set (Fin n → ℝ)) : (∫ y in (a : ℝ) • K, polyAt (prodPoly n x.2) y) = 0 ↔ (∫ y in K, polyAt (productPoly n p) y) = 0 := by
  have haR : (0:ℝ) < a := by exact_mod_cast ha
  have hDR : (0:ℝ) < D := by exact_mod_cast hD
  obtain ⟨e, h1, h2⟩ := h
  rw [integral_dilate n a haR]
  have : ∀ y, polyAt (prodPoly n x.2) ((a : ℝ) • y) = ((a : ℝ) ^ e / (D : ℝ) ^ e) * polyAt (productPoly n p) y := by
    intro y; rw [h1, h2]; ring
  simp only [this]
  rw [integral_const_mul, mul_eq_zero, mul_eq_zero]
  have e1 : (a : ℝ) ^ n ≠ 0 := by positivity
  have e2 : (a : ℝ) ^ e / (D : ℝ) ^ e ≠ 0 := by positivity
  simp only [e1, e2, false_or]

/-! ### the drivers -/

/-- everything after the dilation -/
theorem driver (T : ℕ → VCone → List VCone) (n fuel rounds : ℕ) (D : ℤ) (p p1 q : PV) (ss lfs : List (Sum ℚ)) (c : ℚ)
    (hdil : dilatePV p = some (D, p1)) (hsp : dilateProducts fuel rounds D ss 0 = some (lfs, c)) (hconv : convertToOneCone p1 = some q)
    (rs : List (List ℤ)) (hq1 : q.numOfVarsOneCone = n + 1) (hq2 : q.oneCone = some rs) (hq3 : q.tri = none) (hgood : GoodRays n rs)
    (hT : Triangulates n rs ((T 0 ⟨ofDim (n + 1), rs, 1⟩).map (·.rays))) :
    (sumProducts fuel rounds { q with tri := some (T 0 ⟨ofDim (n + 1), rs, 1⟩) } lfs 0 = none →
      findIntegralProducts T fuel rounds n ss p = none) ∧
    ∀ w, sumProducts fuel rounds { q with tri := some (T 0 ⟨ofDim (n + 1), rs, 1⟩) } lfs 0 = some w →
      ∃ v p', findIntegralProducts T fuel rounds n ss p = some (v, p') ∧
      (v : ℝ) = w / (D : ℝ) ^ n +
        (if q.numOfVars ≠ n + 1 then (volume (hull n rs)).toReal * c / (D : ℝ) ^ n else (volume (hull n rs)).toReal * c) := by
  set cs := T 0 ⟨ofDim (n + 1), rs, 1⟩ with hcs
  have htri : triangulateOneCone T q = some { q with tri := some cs } := by
    unfold triangulateOneCone
    rw [hq3, hq2, hq1]
    rfl
  obtain ⟨w', e', hw'⟩ := volume_value n rs hgood cs hT
  unfold findIntegralProducts
  rw [hdil, Option.bind_some]
  simp only
  rw [hsp, Option.bind_some, hconv, Option.bind_some, htri, Option.bind_some]
  refine ⟨fun h => by rw [h, Option.bind_none], fun w h => ?_⟩
  rw [h, Option.bind_some]
  by_cases hc : c ≠ 0
  · have hvol : findVolume T .triangulation [] { q with tri := some cs } = some (w', { q with tri := some cs }) := by
      unfold findVolume
      have h1 : convertToOneCone { q with tri := some cs } = some { q with tri := some cs } := by
        unfold convertToOneCone; simp [hq2]
      have h2 : triangulateOneCone T { q with tri := some cs } = some { q with tri := some cs } := by
        unfold triangulateOneCone; simp
      simp only
      rw [h1, Option.bind_some, h2, Option.bind_some]
      simp only [hq1, Option.getD_some]
      rw [e', Option.map_some]
    rw [if_pos hc, hvol, Option.map_some]
    refine ⟨_, _, rfl, ?_⟩
    simp only [hq1]
    rw [← hw']
    split_ifs <;> push_cast <;> rfl
  · rw [if_neg hc]
    refine ⟨_, _, rfl, ?_⟩
    push Not at hc
    rw [hc]
    simp

/-- adding up the integrals -/
theorem undilate_sum (n : ℕ) (D : ℤ) (hD : 0 < D) (K : Set (Fin n → ℝ)) (hK : IsCompact K) (f : MvPolynomial (Fin n) ℚ)
    (outs : List (List (Term ℚ))) (c : ℚ) (h : ∀ x : Fin n → ℝ, polyAt f x = c + (outs.map fun o => polyAt (prodPoly n o) ((D : ℝ) • x)).sum) :
    (outs.map fun o => ∫ x in (D : ℝ) • K, polyAt (prodPoly n o) x).sum / (D : ℝ) ^ n + (volume K).toReal * c = ∫ x in K, polyAt f x := by
  have hsum : ∀ x : Fin n → ℝ, polyAt ((outs.map (prodPoly n)).sum) x = (outs.map fun o => polyAt (prodPoly n o) x).sum := by
    intro x
    clear h
    induction outs with
    | nil => simp [polyAt]
    | cons p ps ih => rw [List.map_cons, List.sum_cons, List.map_cons, List.sum_cons, polyAt_add, ih]
  rw [← undilate n D hD K hK f ((outs.map (prodPoly n)).sum) c (by intro x; rw [h, hsum])]
  congr 2
  simp only [hsum]
  clear h hsum
  have hKD : IsCompact ((D : ℝ) • K) := hK.smul _
  induction outs with
  | nil => simp
  | cons p ps ih =>
    simp only [List.map_cons, List.sum_cons]
    rw [ih, integral_add]
    · exact (polyAt_continuous _).continuousOn.integrableOn_compact hKD
    · have : Continuous fun x => (ps.map fun o => polyAt (prodPoly n o) x).sum := by
        apply continuous_list_sum
        intro o _
        exact polyAt_continuous _
      exact this.continuousOn.integrableOn_compact hKD

/-- tangent cones: state before the integration -/
theorem cones_state (n : ℕ) (cones : List VCone) (hv : ∀ c ∈ cones, VertexOk n c.vertex) :
    ∃ (D : ℤ) (p1 q : PV) (rs : List (List ℤ)), 0 < D ∧ D = dilationFactorVertexRays cones ∧ dilatePV (ofCones n cones) = some (D, p1) ∧
      convertToOneCone p1 = some q ∧ q.numOfVars = n ∧
      q.numOfVarsOneCone = n + 1 ∧ q.oneCone = some rs ∧ q.tri = none ∧ (∀ r ∈ rs, r.length = n + 1 ∧ r.getD n 0 = 1) ∧
      rs.map (chart n) = (cones.map fun c => (D : ℝ) • pointR n c.vertex).reverse := by
  obtain ⟨hD, hdvd⟩ := dilationFactorVertexRays_spec n cones hv
  set D := dilationFactorVertexRays cones with hDdef
  refine ⟨D, dilateVertexRays (ofCones n cones) D, ⟨n, n + 1, some (cones.map fun c => { c with vertex := scalarMul c.vertex D 1 }),
    some ((cones.map fun c => ({ c with vertex := scalarMul c.vertex D 1 } : VCone)).map fun c => liftVertex c.vertex).reverse, none⟩, _,
    hD, rfl, ?_, ?_, rfl, rfl, rfl, rfl, ?_, ?_⟩
  · unfold dilatePV ofCones; simp [hDdef]
  · unfold convertToOneCone dilateVertexRays ofCones
    simp [List.map_map]
  · intro r hr
    rw [List.mem_reverse, List.map_map] at hr
    obtain ⟨k, hk, rfl⟩ := List.mem_map.1 hr
    obtain ⟨s1, s2, s3⟩ := scalarMul_spec n k.vertex (hv k hk) D hD (hdvd k hk)
    obtain ⟨l1, l2, l3, l4⟩ := liftVertex_spec n _ s1
    exact ⟨l1, by simp only [Function.comp]; rw [l2, s3]⟩
  · rw [List.map_reverse, List.map_map, List.map_map]
    congr 1
    apply List.map_congr_left
    intro k hk
    obtain ⟨s1, s2, s3⟩ := scalarMul_spec n k.vertex (hv k hk) D hD (hdvd k hk)
    obtain ⟨l1, l2, l3, l4⟩ := liftVertex_spec n _ s1
    simp only [Function.comp]
    rw [l4, s2]

/-- **Specification.** On no simplex that the engine can return for the polytope or a dilate of it the integral of `f` is zero. -/
def NonzeroOnCones (T : ℕ → VCone → List VCone) (n : ℕ) (cones : List VCone) (f : MvPolynomial (Fin n) ℚ) : Prop :=
  ∀ rs : List (List ℤ), GoodRays n rs → (∃ t : ℝ, 0 < t ∧ rs.map (chart n) = (cones.map fun c => t • pointR n c.vertex).reverse) →
    ∀ c ∈ T 0 ⟨ofDim (n + 1), rs, 1⟩, (∫ x in hull n c.rays, polyAt f x) ≠ 0

/-- **Specification.** Some full-dimensional simplex that the engine returns for the polytope (and for each dilate) has integral zero. -/
def ZeroOnCones (T : ℕ → VCone → List VCone) (n : ℕ) (cones : List VCone) (f : MvPolynomial (Fin n) ℚ) : Prop :=
  ∀ rs : List (List ℤ), GoodRays n rs → (∃ t : ℝ, 0 < t ∧ rs.map (chart n) = (cones.map fun c => t • pointR n c.vertex).reverse) →
    ∃ c ∈ T 0 ⟨ofDim (n + 1), rs, 1⟩, volume (hull n c.rays) ≠ 0 ∧ (∫ x in hull n c.rays, polyAt f x) = 0

/-- As `NonzeroOnCones`, only for the list of points that the program uses. -/
def NonzeroOnDilate (T : ℕ → VCone → List VCone) (n : ℕ) (cones : List VCone) (f : MvPolynomial (Fin n) ℚ) : Prop :=
  ∀ rs : List (List ℤ), (∀ r ∈ rs, r.length = n + 1 ∧ r.getD n 0 = 1) →
    rs.map (chart n) = (cones.map fun c => (dilationFactorVertexRays cones : ℝ) • pointR n c.vertex).reverse →
    ∀ c ∈ T 0 ⟨ofDim (n + 1), rs, 1⟩, (∫ x in hull n c.rays, polyAt f x) ≠ 0

/-- As `ZeroOnCones`, only for the list of points that the program uses. -/
def ZeroOnDilate (T : ℕ → VCone → List VCone) (n : ℕ) (cones : List VCone) (f : MvPolynomial (Fin n) ℚ) : Prop :=
  ∀ rs : List (List ℤ), (∀ r ∈ rs, r.length = n + 1 ∧ r.getD n 0 = 1) →
    rs.map (chart n) = (cones.map fun c => (dilationFactorVertexRays cones : ℝ) • pointR n c.vertex).reverse →
    ∃ c ∈ T 0 ⟨ofDim (n + 1), rs, 1⟩, volume (hull n c.rays) ≠ 0 ∧ (∫ x in hull n c.rays, polyAt f x) = 0

theorem integral_products_dilate (T : ℕ → VCone → List VCone) (n : ℕ) (hn : 0 < n) (cones : List VCone)
    (hv : ∀ c ∈ cones, VertexOk n c.vertex) (hT : TriangulatesDilate T n cones) (ps : List Prod') (hps : ∀ p ∈ ps, Usable n p)
    (h0 : ∀ p ∈ ps, Proper n p → NonzeroOnDilate T n cones (productPoly n p)) :
    ∃ (products : List (Sum ℚ)) (r : ℚ) (N : ℕ), (ps.mapM fun p => loadProduct n p.1 p.2) = some products ∧
      (∀ fuel rounds, N ≤ fuel → N ≤ rounds → ∃ p', findIntegralProducts T fuel rounds n products (ofCones n cones) = some (r, p')) ∧
      (r : ℝ) = ∫ x in polytope n cones, polyAt (integrand n ps) x := by
  obtain ⟨D, p1, q, rs, hD, eD, e1, e2, e0, e3, e4, e5, hrs, hchart⟩ := cones_state n cones hv
  have hDR : (0:ℝ) < D := by exact_mod_cast hD
  have hgood : GoodRays n rs := fun r hr => ⟨(hrs r hr).1, by rw [(hrs r hr).2]; exact one_pos⟩
  have hTr := hT rs hrs (by rw [← eD]; exact hchart)
  obtain ⟨ss, prs, c, N, l1, l2, l3, l4, l5, _⟩ := dilateProducts_spec n hn D hD.ne' ps hps
  obtain ⟨K, hK⟩ := sumProducts_spec n { q with tri := some (T 0 ⟨ofDim (n + 1), rs, 1⟩) } e3 rs 1 one_pos (fun r hr => (hrs r hr).2)
    (T 0 ⟨ofDim (n + 1), rs, 1⟩) rfl hTr N prs l2 (by
      intro x hx k hk
      obtain ⟨p, hp, hpp, hcm⟩ := l5 x hx
      rw [Ne, comes_integral n D hD x p hcm 1 one_pos]
      exact h0 p hp hpp rs hrs (by rw [← eD]; exact hchart) k hk)
  have key : ∀ fuel rounds, max N K ≤ fuel → max N K ≤ rounds → ∃ v p', findIntegralProducts T fuel rounds n ss (ofCones n cones) = some (v, p') ∧
      (v : ℝ) = ∫ x in polytope n cones, polyAt (integrand n ps) x := by
    intro fuel rounds h1 h2
    obtain ⟨w, ew, hw⟩ := hK fuel rounds (by omega) (by omega) 0
    have hsp := l3 fuel rounds (by omega) (by omega) 0
    obtain ⟨v, p', ev, hval⟩ := (driver T n fuel rounds D _ p1 q ss _ _ e1 hsp e2 rs e3 e4 e5 hgood hTr).2 w ew
    refine ⟨v, p', ev, ?_⟩
    rw [hval, hw, hull_eq_smul n rs cones D hchart, Int.cast_one, one_smul, if_pos (by rw [e0]; simp), volume_dilate n D hDR,
      ← undilate_sum n D hD _ (polytope_isCompact n cones) (integrand n ps) (prs.map (·.2)) c (by intro x; rw [l4, List.map_map]; rfl),
      List.map_map]
    congr 1
    · simp [Function.comp_def]
    · push_cast
      field_simp
      ring
  obtain ⟨r, _, _, hr⟩ := key _ _ le_rfl le_rfl
  refine ⟨ss, r, max N K, l1, fun fuel rounds h1 h2 => ?_, hr⟩
  obtain ⟨v, p', ev, hval⟩ := key fuel rounds h1 h2
  have : v = r := by
    have : (v : ℝ) = (r : ℝ) := by rw [hr, hval]
    exact_mod_cast this
  exact ⟨p', this ▸ ev⟩

/-- **C80.** Integrals of sums of products of powers of linear forms, polytope given by its tangent cones. For every dimension, every
list of rational vertices and every sum of usable products, if the triangulation engine does its job and no non-constant product has
integral zero over a simplex of the triangulation, then the program ends with a rational number, the Lebesgue integral of the sum over
the convex hull of the vertices. -/
theorem c80_integral_partial (T : ℕ → VCone → List VCone) (n : ℕ) (hn : 0 < n) (cones : List VCone)
    (hv : ∀ c ∈ cones, VertexOk n c.vertex) (hT : TriangulatesPolytope T n cones) (ps : List Prod') (hps : ∀ p ∈ ps, Usable n p)
    (h0 : ∀ p ∈ ps, Proper n p → NonzeroOnCones T n cones (productPoly n p)) :
    ∃ (products : List (Sum ℚ)) (r : ℚ) (N : ℕ), (ps.mapM fun p => loadProduct n p.1 p.2) = some products ∧
      (∀ fuel rounds, N ≤ fuel → N ≤ rounds → ∃ p', findIntegralProducts T fuel rounds n products (ofCones n cones) = some (r, p')) ∧
      (r : ℝ) = ∫ x in polytope n cones, polyAt (integrand n ps) x :=
  integral_products_dilate T n hn cones hv (hT.dilate hv) ps hps fun p hp hpp rs h1 h2 => h0 p hp hpp rs
    (fun r hr => ⟨(h1 r hr).1, by rw [(h1 r hr).2]; exact one_pos⟩)
    ⟨dilationFactorVertexRays cones, by exact_mod_cast (dilationFactorVertexRays_spec n cones hv).1, h2⟩

theorem zero_aborts_dilate (T : ℕ → VCone → List VCone) (n : ℕ) (hn : 0 < n) (cones : List VCone)
    (hv : ∀ c ∈ cones, VertexOk n c.vertex) (hT : TriangulatesDilate T n cones) (ps : List Prod') (hps : ∀ p ∈ ps, Usable n p)
    (h0 : ∃ p ∈ ps, Proper n p ∧ ZeroOnDilate T n cones (productPoly n p)) :
    ∃ (products : List (Sum ℚ)) (N : ℕ), (ps.mapM fun p => loadProduct n p.1 p.2) = some products ∧
      ∀ fuel rounds, N ≤ fuel → N ≤ rounds → findIntegralProducts T fuel rounds n products (ofCones n cones) = none := by
  obtain ⟨D, p1, q, rs, hD, eD, e1, e2, e0, e3, e4, e5, hrs, hchart⟩ := cones_state n cones hv
  have hDR : (0:ℝ) < D := by exact_mod_cast hD
  have hgood : GoodRays n rs := fun r hr => ⟨(hrs r hr).1, by rw [(hrs r hr).2]; exact one_pos⟩
  have hTr := hT rs hrs (by rw [← eD]; exact hchart)
  obtain ⟨ss, prs, c, N, l1, l2, l3, l4, _, l6⟩ := dilateProducts_spec n hn D hD.ne' ps hps
  obtain ⟨p, hp, hpp, hz⟩ := h0
  obtain ⟨x, hx, hcm⟩ := l6 p hp hpp
  obtain ⟨k, hk, hvol, hint⟩ := hz rs hrs (by rw [← eD]; exact hchart)
  obtain ⟨K, hK⟩ := sumProducts_zero n { q with tri := some (T 0 ⟨ofDim (n + 1), rs, 1⟩) } e3 1 one_pos
    (T 0 ⟨ofDim (n + 1), rs, 1⟩) rfl (fun c hc => ⟨hTr.size _ (List.mem_map.2 ⟨c, hc, rfl⟩), fun r hr =>
      (hrs r (hTr.sub _ (List.mem_map.2 ⟨c, hc, rfl⟩) r hr)).2⟩) N prs l2 x hx k hk hvol
    ((comes_integral n D hD x p hcm 1 one_pos _).2 hint)
  refine ⟨ss, max N K, l1, fun fuel rounds h1 h2 => ?_⟩
  exact (driver T n fuel rounds D _ p1 q ss _ _ e1 (l3 fuel rounds (by omega) (by omega) 0) e2 rs e3 e4 e5 hgood hTr).1
    (hK fuel rounds (by omega) (by omega) 0)

/-- **C80, violated part.** The program stops with a failed assertion as soon as one of the products has integral zero over one full-dimensional simplex
of the triangulation. -/
theorem c80_zero_aborts (T : ℕ → VCone → List VCone) (n : ℕ) (hn : 0 < n) (cones : List VCone)
    (hv : ∀ c ∈ cones, VertexOk n c.vertex) (hT : TriangulatesPolytope T n cones) (ps : List Prod') (hps : ∀ p ∈ ps, Usable n p)
    (h0 : ∃ p ∈ ps, Proper n p ∧ ZeroOnCones T n cones (productPoly n p)) :
    ∃ (products : List (Sum ℚ)) (N : ℕ), (ps.mapM fun p => loadProduct n p.1 p.2) = some products ∧
      ∀ fuel rounds, N ≤ fuel → N ≤ rounds → findIntegralProducts T fuel rounds n products (ofCones n cones) = none :=
  zero_aborts_dilate T n hn cones hv (hT.dilate hv) ps hps (by
    obtain ⟨p, hp, hpp, hz⟩ := h0
    exact ⟨p, hp, hpp, fun rs h1 h2 => hz rs (fun r hr => ⟨(h1 r hr).1, by rw [(h1 r hr).2]; exact one_pos⟩)
      ⟨dilationFactorVertexRays cones, by exact_mod_cast (dilationFactorVertexRays_spec n cones hv).1, h2⟩⟩)

/-- **Specification.** As `NonzeroOnCones`, for a polytope given by homogeneous points. -/
def NonzeroOnPoints (T : ℕ → VCone → List VCone) (n : ℕ) (rays : List (List ℤ)) (f : MvPolynomial (Fin n) ℚ) : Prop :=
  ∀ rs : List (List ℤ), GoodRays n rs → rs.map (chart n) = rays.map (chart n) →
    ∀ c ∈ T 0 ⟨ofDim (n + 1), rs, 1⟩, (∫ x in hull n c.rays, polyAt f x) ≠ 0

/-- **C80**, polytope given by homogeneous points (one cone). -/
theorem c80_integral_homogenized_partial (T : ℕ → VCone → List VCone) (n : ℕ) (hn : 0 < n) (rays : List (List ℤ)) (hr : GoodRays n rays)
    (hT : TriangulatesPoints T n rays) (ps : List Prod') (hps : ∀ p ∈ ps, Usable n p)
    (h0 : ∀ p ∈ ps, Proper n p → NonzeroOnPoints T n rays (productPoly n p)) :
    ∃ (products : List (Sum ℚ)) (r : ℚ) (N : ℕ), (ps.mapM fun p => loadProduct n p.1 p.2) = some products ∧
      (∀ fuel rounds, N ≤ fuel → N ≤ rounds →
        ∃ p', findIntegralProducts T fuel rounds n products (ofHomogenized (n + 1) rays) = some (r, p')) ∧
      (r : ℝ) = ∫ x in hull n rays, polyAt (integrand n ps) x := by
  obtain ⟨hD, hdvd⟩ := dilationFactorOneCone_spec n rays hr
  set D := dilationFactorOneCone (n + 1) rays with hDdef
  obtain ⟨rs, e1, hrs, hchart⟩ := dilateRays_spec n D hD rays hr hdvd
  have hgood : GoodRays n rs := fun r h => ⟨(hrs r h).1, by rw [(hrs r h).2]; exact hD⟩
  have hhull : hull n rs = hull n rays := by rw [hull_eq_image, hchart, ← hull_eq_image]
  have hTr := hT rs hgood hchart
  have hdil : dilatePV (ofHomogenized (n + 1) rays) = some (D, ⟨n + 1, n + 1, none, some rs, none⟩) := by
    unfold dilatePV ofHomogenized dilateOneCone
    simp only [ne_eq, not_true, if_false]
    rw [← hDdef, e1]
    rfl
  obtain ⟨ss, prs, c, N, l1, l2, l3, l4, l5, _⟩ := dilateProducts_spec n hn D hD.ne' ps hps
  obtain ⟨K, hK⟩ := sumProducts_spec n ⟨n + 1, n + 1, none, some rs, some (T 0 ⟨ofDim (n + 1), rs, 1⟩)⟩ rfl rs D hD (fun r hr => (hrs r hr).2)
    (T 0 ⟨ofDim (n + 1), rs, 1⟩) rfl hTr N prs l2 (by
      intro x hx k hk
      obtain ⟨p, hp, hpp, hcm⟩ := l5 x hx
      rw [Ne, comes_integral n D hD x p hcm D hD]
      exact h0 p hp hpp rs hgood hchart k hk)
  have key : ∀ fuel rounds, max N K ≤ fuel → max N K ≤ rounds → ∃ v p',
      findIntegralProducts T fuel rounds n ss (ofHomogenized (n + 1) rays) = some (v, p') ∧
      (v : ℝ) = ∫ x in hull n rays, polyAt (integrand n ps) x := by
    intro fuel rounds h1 h2
    obtain ⟨w, ew, hw⟩ := hK fuel rounds (by omega) (by omega) 0
    have hsp := l3 fuel rounds (by omega) (by omega) 0
    obtain ⟨v, p', ev, hval⟩ := (driver T n fuel rounds D _ _ ⟨n + 1, n + 1, none, some rs, none⟩ ss _ _ hdil hsp
      (by unfold convertToOneCone; simp) rs rfl rfl rfl hgood hTr).2 w ew
    refine ⟨v, p', ev, ?_⟩
    rw [hval, hw, hhull, if_neg (by simp),
      ← undilate_sum n D hD _ (hull_isCompact n rays) (integrand n ps) (prs.map (·.2)) c (by intro x; rw [l4, List.map_map]; rfl),
      List.map_map]
    simp [Function.comp_def]
  obtain ⟨r, _, _, hr⟩ := key _ _ le_rfl le_rfl
  refine ⟨ss, r, max N K, l1, fun fuel rounds h1 h2 => ?_, hr⟩
  obtain ⟨v, p', ev, hval⟩ := key fuel rounds h1 h2
  have : v = r := by
    have : (v : ℝ) = (r : ℝ) := by rw [hr, hval]
    exact_mod_cast this
  exact ⟨p', this ▸ ev⟩

end Verif.Products
