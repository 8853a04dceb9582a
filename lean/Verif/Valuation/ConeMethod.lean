import Verif.Valuation.ConeSpec

/-! C55, C56: volumes and integrals by cone decomposition (Lawrence's formula). -/

namespace Verif.Valuation

open MeasureTheory Set Verif.Measure Verif.Trie Latte.RatVec
open scoped Pointwise

/-! ### volume -/

theorem dotZ_cast (n : ℕ) : ∀ a b : List ℤ, a.length = n → b.length = n → ((dotZ a b : ℤ) : ℝ) = ∑ i : Fin n, ((a.getD i 0 : ℤ) : ℝ) * ((b.getD i 0 : ℤ) : ℝ) := by
  induction n with
  | zero => intro a b ha hb; rw [List.length_eq_zero_iff] at ha; subst ha; simp [dotZ]
  | succ n ih =>
    intro a b ha hb
    match a, b, ha, hb with
    | x :: a, y :: b, ha, hb =>
      have := ih a b (by simpa using ha) (by simpa using hb)
      unfold dotZ at *
      rw [Fin.sum_univ_succ]
      simp only [List.zipWith_cons_cons, List.sum_cons, Int.cast_add, Int.cast_mul, this]
      simp

/-- the vertex times a vector, from the integer scale -/
theorem scale_dot (n : ℕ) (v : RVec) (h : VertexOk n v) (c : List ℤ) (hc : c.length = n) :
    ((dotZ (scale v).1 c : ℤ) : ℝ) = ((scale v).2.1 : ℝ) * ip (vecR n c) (pointR n v) := by
  obtain ⟨h1, h2, h3⟩ := scale_spec n v h
  rw [dotZ_cast n _ _ h2 hc, ip, Finset.mul_sum]
  apply Finset.sum_congr rfl
  intro i _
  have h4 := congrArg (fun q : ℚ => (q : ℝ)) (h3 i i.2)
  have h5 : (((scale v).2.1 : ℤ) : ℝ) ≠ 0 := by exact_mod_cast h1.ne'
  unfold pointR vecR
  push_cast at h4
  rw [← h4]
  field_simp

theorem lawVolLoop_spec (n : ℕ) (c : List ℤ) (hc : c.length = n) (cs : List VCone)
    (h : ∀ k ∈ cs, VertexOk n k.vertex ∧ k.coef = 1 ∧ ∀ r ∈ k.rays, r.length = n) : ∀ (a v : ℚ),
    lawVolLoop n c cs a = some v → (v : ℝ) = a + (cs.map (contrib n 0 (vecR n c))).sum ∧
      ∀ k ∈ cs, ∀ r ∈ k.rays, ip (vecR n c) (vecR n r) ≠ 0 := by
  induction cs with
  | nil => intro a v hv; simp [lawVolLoop] at hv; simp [hv]
  | cons k cs ih =>
    intro a v hv
    rw [lawVolLoop] at hv
    split_ifs at hv with hden
    obtain ⟨g1, g2⟩ := ih (fun k hk => h k (by simp [hk])) _ _ hv
    obtain ⟨k1, k2, k3⟩ := h k (by simp)
    rw [foldl_mul_map] at hden g1
    have hF : (((scale k.vertex).2.1 : ℤ) : ℝ) ≠ 0 := by exact_mod_cast (scale_spec n _ k1).1.ne'
    have hr : ∀ r ∈ k.rays, ((-dotZ c r : ℤ) : ℝ) = -ip (vecR n c) (vecR n r) := by
      intro r hr
      rw [Int.cast_neg, dotZ_cast n c r hc (k3 r hr)]; rfl
    have hprod : (((k.rays.map fun r => -dotZ c r).prod : ℤ) : ℝ) = (k.rays.map fun r => -ip (vecR n c) (vecR n r)).prod := by
      rw [Int.cast_list_prod, List.map_map]
      congr 1
      apply List.map_congr_left
      intro r hr'; exact hr r hr'
    constructor
    · rw [g1, List.map_cons, List.sum_cons, ← add_assoc]
      congr 1
      rw [Rat.cast_add]
      congr 1
      rw [Rat.cast_div, Rat.cast_intCast, Rat.cast_intCast, Int.cast_mul, Int.cast_mul, Int.cast_mul, Int.cast_pow, Int.cast_pow, hprod,
        scale_dot n _ k1 c hc, k2, contrib, detR, zero_add, mul_pow]
      push_cast
      field_simp
    · intro k' hk'
      rcases List.mem_cons.1 hk' with rfl | hk'
      · intro r hr' h0
        apply hden
        have : (k'.rays.map fun r => -dotZ c r).prod = 0 := by
          apply List.prod_eq_zero
          apply List.mem_map.2
          refine ⟨r, hr', ?_⟩
          have := hr r hr'
          rw [h0, neg_zero] at this
          exact_mod_cast this
        rw [this, mul_zero]
      · exact g2 k' hk'

theorem lawVolSearch_spec (n : ℕ) (cs : List VCone) : ∀ (fuel : ℕ) (draws : List ℕ) (v : ℚ), lawVolSearch n cs fuel draws = some v →
    ∃ c : List ℤ, c.length = n ∧ lawVolLoop n c cs 0 = some v := by
  intro fuel
  induction fuel with
  | zero => intro d v h; simp [lawVolSearch] at h
  | succ fuel ih =>
    intro d v h
    rw [lawVolSearch] at h
    split_ifs at h with hd
    split at h
    · rename_i a ha
      simp only [Option.some.injEq] at h
      subst h
      exact ⟨_, by simp; omega, ha⟩
    · exact ih _ _ h

theorem volumeLawrence_spec (n : ℕ) (cones cs : List VCone) (hv : ∀ c ∈ cones, VertexOk n c.vertex) (h : AllOk n cones cs)
    (p : PV) (hp : p.numOfVars = n) (ht : p.tri = some cs) (draws : List ℕ) (v : ℚ) (hvol : volumeLawrence p draws = some v) :
    (v : ℝ) = (volume (polytope n cones)).toReal := by
  unfold volumeLawrence at hvol
  rw [hp, ht, Option.getD_some, Option.map_eq_some_iff] at hvol
  obtain ⟨a, ha, rfl⟩ := hvol
  obtain ⟨c, hc, hl⟩ := lawVolSearch_spec n cs _ _ _ ha
  obtain ⟨g1, g2⟩ := lawVolLoop_spec n c hc cs (fun k hk => by
    obtain ⟨c', hc', e⟩ := h.vertex k hk
    exact ⟨e ▸ hv c' hc', h.coef k hk, h.len k hk⟩) 0 a hl
  have := h.lawrence 0 (vecR n c) g2
  simp only [pow_zero, Nat.factorial_zero, Nat.cast_one, zero_add] at this
  rw [integral_const, smul_eq_mul, mul_one, measureReal_restrict_apply_univ, measureReal_def] at this
  rw [this, factorialPV_eq]
  push_cast
  rw [g1]
  push_cast
  ring

/-! ### integrals of powers of linear forms -/

/-- a rational vertex -/
def pointQ (n : ℕ) (v : RVec) : Fin n → ℚ := fun i => ((v.ents.getD i (0, 1)).1 : ℚ) / ((v.ents.getD i (0, 1)).2 : ℚ)

theorem pointQ_cast (n : ℕ) (v : RVec) (i : Fin n) : ((pointQ n v i : ℚ) : ℝ) = pointR n v i := by
  unfold pointQ pointR; push_cast; rfl

/-- the integral of a power of a linear form over a polytope is a polynomial in the form -/
theorem exists_integral_poly (n : ℕ) (cones : List VCone) (m : ℕ) : ∃ I : MvPolynomial (Fin n) ℚ, ∀ x : Fin n → ℚ,
    ((MvPolynomial.eval x I : ℚ) : ℝ) = ((m + n).factorial : ℝ) / (m.factorial : ℝ) * ∫ y in polytope n cones, ip (fun i => (x i : ℝ)) y ^ m := by
  classical
  let v : Fin cones.length → Fin n → ℝ := fun i => pointR n cones[i].vertex
  let q : Fin cones.length → Fin n → ℚ := fun i => pointQ n cones[i].vertex
  have hqv : ∀ i a, ((q i a : ℚ) : ℝ) = v i a := fun i a => pointQ_cast n _ a
  obtain ⟨B, _, e, _, hcov, hov, _⟩ := exists_triangulation v
  let M : B → Matrix (Fin n) (Fin n) ℚ := fun b => Matrix.of fun i j => q (e b j.succ) i - q (e b 0) i
  have hM : ∀ b, (((M b).det : ℚ) : ℝ) = (edgeMat n (v ∘ e b)).det := by
    intro b
    have : edgeMat n (v ∘ e b) = (M b).map (Rat.castHom ℝ) := by
      ext i j; simp [edgeMat, M, hqv]
    rw [this, ← RingHom.mapMatrix_apply, ← RingHom.map_det]; rfl
  refine ⟨∑ b, MvPolynomial.C |(M b).det| * hom (n + 1) m (fun j => ∑ a : Fin n, MvPolynomial.C (q (e b j) a) * MvPolynomial.X a), ?_⟩
  intro x
  rw [polytope_eq_range]
  have hus := integral_union_simplices _ (fun b => v ∘ e b) hcov hov (fun y => ip (fun i => (x i : ℝ)) y ^ m) ((ip_continuous _).pow m)
  rw [hus, Finset.mul_sum, map_sum]
  push_cast
  apply Finset.sum_congr rfl
  intro b _
  have := integral_simplex_pow n m (v ∘ e b) (fun i => (x i : ℝ))
  unfold ip
  rw [this, map_mul, MvPolynomial.eval_C, hom_map]
  have h1 : (((hom (n + 1) m fun j => (MvPolynomial.eval x) (∑ a : Fin n, MvPolynomial.C (q (e b j) a) * MvPolynomial.X a)) : ℚ) : ℝ) =
      hom (n + 1) m (fun j => ∑ i, (x i : ℝ) * (v ∘ e b) j i) := by
    rw [show ((hom (n + 1) m fun j => (MvPolynomial.eval x) (∑ a : Fin n, MvPolynomial.C (q (e b j) a) * MvPolynomial.X a) : ℚ) : ℝ) =
      Rat.castHom ℝ (hom (n + 1) m fun j => (MvPolynomial.eval x) (∑ a : Fin n, MvPolynomial.C (q (e b j) a) * MvPolynomial.X a)) from rfl, hom_map]
    congr 1
    funext j
    simp only [map_sum, map_mul, MvPolynomial.eval_C, MvPolynomial.eval_X, Function.comp, eq_ratCast, hqv]
    apply Finset.sum_congr rfl
    intro i _; ring
  rw [Rat.cast_mul, Rat.cast_abs, h1, hM]
  have h2 : (m.factorial : ℝ) ≠ 0 := by exact_mod_cast m.factorial_ne_zero
  have h3 : ((m + n).factorial : ℝ) ≠ 0 := by exact_mod_cast (m + n).factorial_ne_zero
  field_simp

theorem pair_cast (n : ℕ) (r : List ℤ) (x : Fin n → ℚ) : ((Latte.Lawrence.pair r x : ℚ) : ℝ) = ip (fun i => (x i : ℝ)) (vecR n r) := by
  unfold Latte.Lawrence.pair ip vecR
  push_cast
  apply Finset.sum_congr rfl
  intro i _; ring

theorem point_integral (n : ℕ) (v : RVec) (hl : v.ents.length = n) (h : ∀ e ∈ v.ents, e.2 = 1) : pointR n v = vecR n (v.ents.map Prod.fst) := by
  funext i
  unfold pointR vecR
  have hi : (i : ℕ) < v.ents.length := by rw [hl]; exact i.2
  rw [List.getD_eq_getElem _ _ hi, List.getD_eq_getElem _ _ (by simpa using hi), List.getElem_map, h _ (List.getElem_mem _)]
  simp

/-- Lawrence's formula in the form used by C48, for the simplicial cones of a polytope with integer vertices -/
theorem lawrenceFormula (n : ℕ) (cones cs : List VCone) (h : AllOk n cones cs) (hv : ∀ c ∈ cones, VertexOk n c.vertex)
    (hint : ∀ c ∈ cones, ∀ e ∈ c.vertex.ents, e.2 = 1) (m : ℕ) (I : MvPolynomial (Fin n) ℚ)
    (hI : ∀ x : Fin n → ℚ, ((MvPolynomial.eval x I : ℚ) : ℝ) = ((m + n).factorial : ℝ) / (m.factorial : ℝ) * ∫ y in polytope n cones, ip (fun i => (x i : ℝ)) y ^ m) :
    Latte.Lawrence.LawrenceFormula n m (cs.map toLCone) I := by
  intro x hx
  have hx' : ∀ k ∈ cs, ∀ r ∈ k.rays, ip (fun i => (x i : ℝ)) (vecR n r) ≠ 0 := by
    intro k hk r hr h0
    apply hx (toLCone k) (List.mem_map_of_mem hk) r hr
    rw [← pair_cast] at h0
    exact_mod_cast h0
  have key : ((MvPolynomial.eval x I : ℚ) : ℝ) = (cs.map (contrib n m (fun i => (x i : ℝ)))).sum := by
    rw [hI, h.lawrence m _ hx', ← mul_assoc]
    have h2 : (m.factorial : ℝ) ≠ 0 := by exact_mod_cast m.factorial_ne_zero
    have h3 : ((m + n).factorial : ℝ) ≠ 0 := by exact_mod_cast (m + n).factorial_ne_zero
    have h4 : ((m + n).factorial : ℝ) / (m.factorial : ℝ) * ((m.factorial : ℝ) / ((m + n).factorial : ℝ)) = 1 := by field_simp
    rw [h4, one_mul]
  have : ((MvPolynomial.eval x I : ℚ) : ℝ) = (((cs.map toLCone).map fun c =>
      (Latte.Lawrence.absDet n c.rays : ℚ) * Latte.Lawrence.pair c.vertex x ^ (m + n) / (c.rays.map fun r => -Latte.Lawrence.pair r x).prod).sum : ℚ) := by
    rw [key, Rat.cast_list_sum, List.map_map, List.map_map]
    congr 1
    apply List.map_congr_left
    intro k hk
    obtain ⟨c, hc, e⟩ := h.vertex k hk
    simp only [Function.comp, contrib, toLCone, detR]
    push_cast
    rw [List.map_map]
    rw [pair_cast, point_integral n k.vertex (e ▸ (hv c hc).len) (e ▸ hint c hc)]
    congr 2
    apply List.map_congr_left
    intro r _
    simp only [Function.comp]
    push_cast
    rw [pair_cast]
  exact_mod_cast this

theorem integral_forms (n : ℕ) (K : Set (Fin n → ℝ)) (hK : IsCompact K) (out : List (Term ℚ)) :
    ∫ x in K, polyAt (formsPoly n out) x = (out.map fun t => ((t.coef : ℝ) / (t.degree.toNat.factorial : ℝ)) *
      ∫ x in K, ip (vecR n t.exps) x ^ t.degree.toNat).sum := by
  induction out with
  | nil => simp [formsPoly, polyAt]
  | cons t out ih =>
    have h1 : ∀ x : Fin n → ℝ, polyAt (formsPoly n (t :: out)) x =
        ((t.coef : ℝ) / (t.degree.toNat.factorial : ℝ)) * ip (vecR n t.exps) x ^ t.degree.toNat + polyAt (formsPoly n out) x := by
      intro x
      rw [polyAt_formsPoly, List.map_cons, List.sum_cons, ← polyAt_formsPoly, polyAt_linFormPoly]
      rfl
    simp only [h1]
    rw [integral_add, ih, integral_const_mul, List.map_cons, List.sum_cons]
    · exact (continuous_const.mul ((ip_continuous _).pow _)).continuousOn.integrableOn_compact hK
    · exact (polyAt_continuous _).continuousOn.integrableOn_compact hK

theorem integralLawrence_spec (n : ℕ) (cones cs : List VCone) (h : AllOk n cones cs) (hv : ∀ c ∈ cones, VertexOk n c.vertex)
    (hint : ∀ c ∈ cones, ∀ e ∈ c.vertex.ents, e.2 = 1) (fuel rounds : ℕ) (p : PV) (hp : p.numOfVars = n) (ht : p.tri = some cs)
    (lf : Sum ℚ) (hvar : lf.varCount = n) (out : List (Term ℚ))
    (hd : lf.termCount ≠ 0 → drain fuel rounds (begin' lf.trie n) = some out) (h0 : lf.termCount = 0 ↔ out = [])
    (hout : ∀ t ∈ out, 0 < t.degree ∧ t.degree + n < 2 ^ 20 ∧ t.exps.length = n) (draws : List ℕ) (v : ℚ)
    (hi : integralLawrence fuel rounds p lf draws = some v) : (v : ℝ) = ∫ x in polytope n cones, polyAt (formsPoly n out) x := by
  unfold integralLawrence at hi
  by_cases hz : lf.termCount = 0
  · rw [if_pos hz] at hi
    simp only [Option.some.injEq] at hi
    rw [← hi, h0.1 hz]
    simp [formsPoly, polyAt]
  · rw [if_neg hz, ht] at hi
    simp only at hi
    rw [hvar, hd hz, Option.bind_some, hp] at hi
    choose I hI using fun m => exists_integral_poly n cones m
    have hok : Latte.Lawrence.ConesOk n (cs.map toLCone) := by
      intro c hc
      obtain ⟨k, hk, rfl⟩ := List.mem_map.1 hc
      obtain ⟨c', hc', e⟩ := h.vertex k hk
      exact ⟨by simp only [toLCone, List.length_map]; rw [e]; exact (hv c' hc').len, h.size k hk, h.len k hk, h.indep k hk⟩
    have main := Latte.Lawrence.c48_findIntegral n (cs.map toLCone) (by simpa using h.ne) hok I
      (out.map fun t => (⟨t.coef, t.degree.toNat, t.exps⟩ : Latte.Lawrence.Form))
      (fun f _ => lawrenceFormula n cones cs h hv hint f.m (I f.m) (hI f.m)) (by
        intro f hf
        obtain ⟨t, ht, rfl⟩ := List.mem_map.1 hf
        obtain ⟨a, b, c⟩ := hout t ht
        refine ⟨c, Or.inl ?_, ?_⟩ <;> simp only <;> omega) draws v hi
    rw [main, integral_forms n _ (polytope_isCompact n cones), Rat.cast_list_sum, List.map_map, List.map_map]
    congr 1
    apply List.map_congr_left
    intro t ht
    simp only [Function.comp]
    rw [Rat.cast_div, Rat.cast_mul, hI, Nat.add_comm n]
    have h2 : (t.degree.toNat.factorial : ℝ) ≠ 0 := by exact_mod_cast t.degree.toNat.factorial_ne_zero
    have h3 : ((t.degree.toNat + n).factorial : ℝ) ≠ 0 := by exact_mod_cast (t.degree.toNat + n).factorial_ne_zero
    have h4 : (fun i => ((Latte.Lawrence.vecQ n t.exps i : ℚ) : ℝ)) = vecR n t.exps := by
      funext i; simp [Latte.Lawrence.vecQ, vecR]
    rw [h4]
    push_cast
    field_simp

theorem scalarMul_den (n : ℕ) (v : RVec) (h : VertexOk n v) (D : ℤ) (hdvd : ∀ e ∈ v.ents, e.2 ∣ D) :
    ∀ e ∈ (scalarMul v D 1).ents, e.2 = 1 := by
  have hden : DenOk { v with ents := v.ents.map fun e => (e.1 * D, e.2 * 1), computed := false } := by
    intro e he
    obtain ⟨x, hx, rfl⟩ := List.mem_map.1 he
    simpa using (h.den x hx).ne'
  obtain ⟨s1, s2, s3, s4, s5⟩ := canonicalize_spec _ hden (by intro hc; simp at hc)
  have hents : (scalarMul v D 1).ents = v.ents.map fun e => canonEntry (e.1 * D, e.2 * 1) := by
    unfold scalarMul; rw [s3, List.map_map]; rfl
  intro e he
  rw [hents] at he
  obtain ⟨x, hx, rfl⟩ := List.mem_map.1 he
  exact canonEntry_integral _ _ _ (h.den x hx) (hdvd x hx)

/-! ### the method as a whole -/

theorem triangulateVertexRays_eq (T : ℕ → VCone → List VCone) (p : PV) (cones : List VCone) (hp : p.vertexRayCones = some cones)
    (ht : p.tri = none) (hne : triangulateLoop T 0 cones [] ≠ []) :
    triangulateVertexRays T p = { p with tri := some (triangulateLoop T 0 cones []) } := by
  unfold triangulateVertexRays
  rw [ht, hp]
  simp only [Option.isSome_none, Bool.false_eq_true, if_false, Option.getD_some]

theorem triangulateVertexRays_some (T : ℕ → VCone → List VCone) (p : PV) (h : p.tri.isSome) : triangulateVertexRays T p = p := by
  unfold triangulateVertexRays; rw [if_pos h]

/-- the dilated cones -/
def dilCones (D : ℤ) (cones : List VCone) : List VCone := cones.map fun c => { c with vertex := scalarMul c.vertex D 1 }

theorem dilCones_polytope (n : ℕ) (cones : List VCone) (D : ℤ) (h : ∀ c ∈ cones, pointR n (scalarMul c.vertex D 1) = (D : ℝ) • pointR n c.vertex) :
    polytope n (dilCones D cones) = (D : ℝ) • polytope n cones := by
  unfold polytope dilCones
  rw [← convexHull_smul]
  congr 1
  ext x
  simp only [mem_ofPred_eq, mem_smul_set, List.mem_map]
  constructor
  · rintro ⟨_, ⟨c, hc, rfl⟩, rfl⟩; exact ⟨_, ⟨c, hc, rfl⟩, (h c hc).symm⟩
  · rintro ⟨_, ⟨c, hc, rfl⟩, rfl⟩; exact ⟨_, ⟨c, hc, rfl⟩, (h c hc).symm⟩

/-- **C55.** Volume by cone decomposition, tangent cones given: whatever the random vectors, a returned number is the Lebesgue volume. -/
theorem c55_volume (T : ℕ → VCone → List VCone) (n : ℕ) (cones : List VCone) (h : TangentCones n cones)
    (hT : TriangulatesCones T n cones) (draws : List ℕ) (r : ℚ) (p' : PV)
    (hr : findVolume T .cone draws (ofCones n cones) = some (r, p')) : (r : ℝ) = (volume (polytope n cones)).toReal := by
  have hall := allOk T n cones h.tc (by
    intro i c hc
    have hm := List.mem_of_getElem? hc
    have := hT i c hc c.vertex (h.vertex c hm) ⟨1, one_pos, by simp⟩
    exact this)
  unfold findVolume at hr
  simp only at hr
  rw [triangulateVertexRays_eq T _ cones rfl rfl hall.ne, Option.map_eq_some_iff] at hr
  obtain ⟨v, hv, e⟩ := hr
  simp only [Prod.mk.injEq] at e
  rw [← e.1]
  exact volumeLawrence_spec n cones _ h.vertex hall _ rfl rfl draws v hv

/-- tangent cones: the answer from dilated forms -/
theorem cones_finish_cone (T : ℕ → VCone → List VCone) (n : ℕ) (cones : List VCone) (h : TangentCones n cones)
    (hT : TriangulatesCones T n cones) (fuel rounds : ℕ) (draws draws' : List ℕ)
    (lf : Sum ℚ) (hvar : lf.varCount = n) (c : ℚ) (out : List (Term ℚ))
    (hd : lf.termCount ≠ 0 → drain fuel rounds (begin' lf.trie n) = some out) (h0 : lf.termCount = 0 ↔ out = [])
    (hout : ∀ t ∈ out, 0 < t.degree ∧ t.degree + n < 2 ^ 20 ∧ t.exps.length = n) (f : MvPolynomial (Fin n) ℚ)
    (hf : ∀ x : Fin n → ℝ, polyAt f x = c + polyAt (formsPoly n out) ((dilationFactorVertexRays cones : ℝ) • x)) (r : ℚ) (p' : PV)
    (hr : finish T fuel rounds .cone draws draws' (dilationFactorVertexRays cones) lf c
      (dilateVertexRays (ofCones n cones) (dilationFactorVertexRays cones)) = some (r, p')) :
    (r : ℝ) = ∫ x in polytope n cones, polyAt f x := by
  obtain ⟨hD, hdvd⟩ := dilationFactorVertexRays_spec n cones h.vertex
  set D := dilationFactorVertexRays cones with hDdef
  have hDR : (0:ℝ) < D := by exact_mod_cast hD
  have hsc : ∀ k ∈ cones, _ := fun k hk => scalarMul_spec n k.vertex (h.vertex k hk) D hD (hdvd k hk)
  have htc : TC n (dilCones D cones) := h.tc.dilate _ D hDR (fun k hk => ⟨rfl, (hsc k hk).1, (hsc k hk).2.1⟩)
  have hint : ∀ k ∈ dilCones D cones, ∀ e ∈ k.vertex.ents, e.2 = 1 := by
    intro k hk
    obtain ⟨c, hc, rfl⟩ := List.mem_map.1 hk
    exact scalarMul_den n c.vertex (h.vertex c hc) D (hdvd c hc)
  have hall := allOk T n (dilCones D cones) htc (by
    intro i k hk
    unfold dilCones at hk
    rw [List.getElem?_map, Option.map_eq_some_iff] at hk
    obtain ⟨c, hc, rfl⟩ := hk
    have hm := List.mem_of_getElem? hc
    exact hT i c hc _ (hsc c hm).1 ⟨D, hDR, (hsc c hm).2.1⟩)
  set cs := triangulateLoop T 0 (dilCones D cones) [] with hcs
  have hp : triangulateVertexRays T (dilateVertexRays (ofCones n cones) D) = ⟨n, n + 1, some (dilCones D cones), none, some cs⟩ := by
    rw [triangulateVertexRays_eq T _ (dilCones D cones) rfl rfl hall.ne]
    rfl
  have hpoly := dilCones_polytope n cones D (fun k hk => (hsc k hk).2.1)
  unfold finish at hr
  simp only at hr
  rw [hp, Option.bind_eq_some_iff] at hr
  obtain ⟨a, ha, hr⟩ := hr
  have hA := integralLawrence_spec n (dilCones D cones) cs hall htc.vertex hint fuel rounds _ rfl rfl lf hvar out hd h0 hout draws a ha
  rw [hvar] at hr
  have und := undilate n D hD _ (polytope_isCompact n cones) f _ c hf
  split_ifs at hr with hc
  · rw [Option.map_eq_some_iff] at hr
    obtain ⟨⟨v, q⟩, hv, e⟩ := hr
    simp only [Prod.mk.injEq] at e
    unfold findVolume at hv
    simp only at hv
    rw [triangulateVertexRays_some _ _ (by simp), Option.map_eq_some_iff] at hv
    obtain ⟨v', hv', e'⟩ := hv
    simp only [Prod.mk.injEq] at e'
    have hV := volumeLawrence_spec n (dilCones D cones) cs htc.vertex hall _ rfl rfl draws' v' hv'
    rw [← e.1, ← und, ← hpoly, ← hA]
    push_cast
    rw [← e'.1, hV, hpoly, volume_dilate n D hDR]
    field_simp
  · simp only [Option.some.injEq, Prod.mk.injEq] at hr
    push Not at hc
    rw [← hr.1, ← und, ← hpoly, ← hA, hc]
    push_cast
    simp

/-- **C56.** Integral of a polynomial by cone decomposition, tangent cones given: whatever the random choices, a returned number is the
Lebesgue integral of the polynomial over the polytope. -/
theorem c56_integral_polynomial (T : ℕ → VCone → List VCone) (n : ℕ) (hn0 : 0 < n) (cones : List VCone) (h : TangentCones n cones)
    (hT : TriangulatesCones T n cones) (xs : List (Term ℚ)) (hx : PolyIn n xs) (hdeg : ∀ x ∈ xs, x.exps.sum + n < 2 ^ 20) :
    ∃ (poly : Sum ℚ) (N : ℕ), insertAll (emptySum ℚ n) xs = some poly ∧
      ∀ fuel rounds, N ≤ fuel → N ≤ rounds → ∀ draws draws' r p',
        findIntegralPoly T fuel rounds .cone draws draws' poly (ofCones n cones) = some (r, p') →
        (r : ℝ) = ∫ x in polytope n cones, polyAt (monoPoly n xs) x := by
  obtain ⟨hD, _⟩ := dilationFactorVertexRays_spec n cones h.vertex
  obtain ⟨poly, lf, c, out, N, e, d, hvar, h0, hout, hval⟩ := dilatePolynomial_spec n hn0 xs hx (dilationFactorVertexRays cones) hD.ne'
  refine ⟨poly, N, e, fun fuel rounds h1 h2 draws draws' r p' hr => ?_⟩
  unfold findIntegralPoly at hr
  have hdil : dilatePV (ofCones n cones) = some (dilationFactorVertexRays cones, dilateVertexRays (ofCones n cones) (dilationFactorVertexRays cones)) := by
    unfold dilatePV ofCones; simp
  rw [hdil, Option.bind_some] at hr
  simp only at hr
  rw [(d fuel rounds h1 h2).1, Option.bind_some] at hr
  exact cones_finish_cone T n cones h hT fuel rounds draws draws' lf hvar c out (d fuel rounds h1 h2).2 h0 (by
    intro t ht
    obtain ⟨a, b, x, hx', hd⟩ := hout t ht
    exact ⟨a, by rw [hd]; exact hdeg x hx', b⟩) _ hval r p' hr

/-- **C56**, sums of powers of linear forms. -/
theorem c56_integral_forms (T : ℕ → VCone → List VCone) (n : ℕ) (hn0 : 0 < n) (cones : List VCone) (h : TangentCones n cones)
    (hT : TriangulatesCones T n cones) (xs : List (Term ℚ)) (hx : FormsIn n xs) (hdeg : ∀ x ∈ xs, x.degree + n < 2 ^ 20) :
    ∃ (forms : Sum ℚ) (N : ℕ), insertAll (emptySum ℚ n) xs = some forms ∧
      ∀ fuel rounds, N ≤ fuel → N ≤ rounds → ∀ draws draws' r p',
        findIntegralForms T fuel rounds .cone draws draws' forms (ofCones n cones) = some (r, p') →
        (r : ℝ) = ∫ x in polytope n cones, polyAt (formsPoly n xs) x := by
  obtain ⟨hD, _⟩ := dilationFactorVertexRays_spec n cones h.vertex
  obtain ⟨forms, lf, c, out, N, e, d, hvar, h0, hout, hval⟩ := dilateLinearForms_spec n hn0 xs hx (dilationFactorVertexRays cones) hD.ne'
  refine ⟨forms, N, e, fun fuel rounds h1 h2 draws draws' r p' hr => ?_⟩
  unfold findIntegralForms at hr
  have hdil : dilatePV (ofCones n cones) = some (dilationFactorVertexRays cones, dilateVertexRays (ofCones n cones) (dilationFactorVertexRays cones)) := by
    unfold dilatePV ofCones; simp
  rw [hdil, Option.bind_some] at hr
  simp only at hr
  rw [(d fuel rounds h1 h2).1, Option.bind_some] at hr
  exact cones_finish_cone T n cones h hT fuel rounds draws draws' lf hvar c out (d fuel rounds h1 h2).2 h0 (by
    intro t ht
    obtain ⟨a, b, x, hx', hd⟩ := hout t ht
    exact ⟨a, by rw [hd]; exact hdeg x hx', b⟩) _ hval r p' hr

end Verif.Valuation
