import Verif.Lawrence.Limit
import Verif.Residue.Props
import Mathlib.LinearAlgebra.Matrix.NonsingularInverse
import Mathlib.LinearAlgebra.Matrix.ToLin

/-! C48, C49: integration with Lawrence's formula. -/

namespace Latte.Lawrence

/-- integer list as a rational vector -/
def vecQ (n : Nat) (xs : List Int) : Fin n → ℚ := fun i => (xs.getD i 0 : ℚ)

/-- `<r, x>` -/
def pair {n : Nat} (r : List Int) (x : Fin n → ℚ) : ℚ := ∑ i : Fin n, (r.getD i 0 : ℚ) * x i

/-- Lawrence's formula: for all `x` not orthogonal to a ray, the polynomial `I` has the value
`∑ |det| <v,x>^(m+n) / ∏ <-r,x>`. For the tangent cones of a polytope `I(x)` is `(m+n)!/m!` times the integral of `<x,·>^m`. -/
def LawrenceFormula (n m : Nat) (cones : List Cone) (I : MvPolynomial (Fin n) ℚ) : Prop :=
  ∀ x : Fin n → ℚ, (∀ c ∈ cones, ∀ r ∈ c.rays, pair r x ≠ 0) →
    MvPolynomial.eval x I = (cones.map fun c =>
      (absDet n c.rays : ℚ) * pair c.vertex x ^ (m + n) / (c.rays.map fun r => -pair r x).prod).sum

/-- the cones are simplicial cones in `n`-space -/
def ConesOk (n : Nat) (cones : List Cone) : Prop :=
  ∀ c ∈ cones, c.vertex.length = n ∧ c.rays.length = n ∧ (∀ r ∈ c.rays, r.length = n) ∧ absDet n c.rays ≠ 0

theorem dot_pair (n : Nat) : ∀ (a b : List Int), a.length ≤ n → ((dot a b : Int) : ℚ) = pair a (vecQ n b) := by
  induction n with
  | zero =>
    intro a b h
    have : a = [] := List.length_eq_zero_iff.1 (by omega)
    subst this; simp [dot, pair]
  | succ n ih =>
    intro a b h
    cases a with
    | nil => simp [dot, pair]
    | cons x xs =>
      cases b with
      | nil => simp [dot, pair, vecQ]
      | cons y ys =>
        have := ih xs ys (by simpa using h)
        unfold pair vecQ dot at *
        rw [Fin.sum_univ_succ]
        simp only [List.zipWith_cons_cons, List.sum_cons, Int.cast_add, Int.cast_mul, this]
        simp

theorem dot_comm (a b : List Int) : dot a b = dot b a := by
  unfold dot
  induction a generalizing b with
  | nil => simp
  | cons x xs ih =>
    cases b with
    | nil => simp
    | cons y ys => simp [ih ys, mul_comm]

theorem pair_add {n : Nat} (r : List Int) (x y : Fin n → ℚ) (t : ℚ) : pair r (fun i => x i + t * y i) = pair r x + t * pair r y := by
  unfold pair
  rw [Finset.mul_sum, ← Finset.sum_add_distrib]
  apply Finset.sum_congr rfl
  intro i _; ring

/-- a finite set of nonzero vectors misses some hyperplane complement -/
theorem exists_generic (n : Nat) (rs : List (List Int)) (h : ∀ r ∈ rs, ∃ i : Fin n, r.getD i 0 ≠ 0) :
    ∃ w : Fin n → ℚ, ∀ r ∈ rs, pair r w ≠ 0 := by
  let P : List Int → Polynomial ℚ := fun r => ∑ i : Fin n, Polynomial.C (r.getD i 0 : ℚ) * Polynomial.X ^ (i : ℕ)
  have hP : ∀ r ∈ rs, P r ≠ 0 := by
    intro r hr h0
    obtain ⟨i, hi⟩ := h r hr
    have := congrArg (Polynomial.coeff · (i : ℕ)) h0
    simp only [P, Polynomial.finsetSum_coeff, Polynomial.coeff_C_mul, Polynomial.coeff_X_pow, Polynomial.coeff_zero] at this
    rw [Finset.sum_eq_single i] at this
    · simp at this; exact hi this
    · intro j _ hj; rw [if_neg (fun e => hj (Fin.ext e.symm)), mul_zero]
    · simp
  have hprod : (rs.map P).prod ≠ 0 := by
    apply List.prod_ne_zero
    intro h0
    obtain ⟨r, hr, e⟩ := List.mem_map.1 h0
    exact hP r hr e
  obtain ⟨t, ht⟩ : ∃ t : ℚ, ((rs.map P).prod).eval t ≠ 0 := by
    by_contra hne
    push Not at hne
    exact hprod (Polynomial.funext fun t => by rw [hne t, Polynomial.eval_zero])
  refine ⟨fun i => t ^ (i : ℕ), ?_⟩
  intro r hr h0
  apply ht
  rw [Polynomial.eval_list_prod, List.map_map]
  apply List.prod_eq_zero
  apply List.mem_map.2
  refine ⟨r, hr, ?_⟩
  rw [Function.comp, Polynomial.eval_finsetSum]
  rw [← h0]
  unfold pair
  apply Finset.sum_congr rfl
  intro i _; simp

theorem ray_nonzero (n : Nat) (rays : List (List Int)) (hl : rays.length = n) (hd : absDet n rays ≠ 0) :
    ∀ r ∈ rays, ∃ i : Fin n, r.getD i 0 ≠ 0 := by
  intro r hr
  by_contra hne
  push Not at hne
  apply hd
  obtain ⟨j, hj, rfl⟩ := List.mem_iff_getElem.1 hr
  unfold absDet
  rw [abs_eq_zero]
  apply Matrix.det_eq_zero_of_column_eq_zero (⟨j, by omega⟩ : Fin n)
  intro i
  rw [Matrix.of_apply]
  have : rays.getD ((⟨j, by omega⟩ : Fin n) : ℕ) [] = rays[j] := List.getD_eq_getElem _ _ hj
  rw [this]; exact hne i

theorem not_all_orthogonal (n : Nat) (rays : List (List Int)) (hl : rays.length = n) (hd : absDet n rays ≠ 0) (l : List Int)
    (hll : l.length = n) (hl0 : ∃ x ∈ l, x ≠ 0) : ∃ r ∈ rays, dot l r ≠ 0 := by
  by_contra hne
  push Not at hne
  apply hd
  unfold absDet
  rw [abs_eq_zero]
  apply Matrix.exists_vecMul_eq_zero_iff.1
  refine ⟨fun i => l.getD i 0, ?_, ?_⟩
  · obtain ⟨x, hx, hx0⟩ := hl0
    obtain ⟨i, hi, rfl⟩ := List.mem_iff_getElem.1 hx
    intro h0
    apply hx0
    have := congrFun h0 ⟨i, by omega⟩
    have h2 : l.getD i 0 = l[i] := List.getD_eq_getElem _ _ hi
    rw [← h2]; exact this
  · funext j
    have hj : (j : ℕ) < rays.length := by omega
    have h1 := hne (rays[(j : ℕ)]) (List.getElem_mem hj)
    have h2 := dot_pair n l (rays[(j : ℕ)]) (by omega)
    rw [h1] at h2
    unfold pair vecQ at h2
    have h3 : rays.getD (j : ℕ) [] = rays[(j : ℕ)] := List.getD_eq_getElem _ _ hj
    simp only [Matrix.vecMul, dotProduct, Matrix.of_apply, h3, Pi.zero_apply]
    have : (((∑ i : Fin n, l.getD i 0 * (rays[(j : ℕ)]).getD i 0 : Int)) : ℚ) = 0 := by
      push_cast; rw [← h2]; simp
    exact_mod_cast this

/-- data of a cone along `l + ε (e + s e')` -/
noncomputable def coneCD (n : Nat) (l e e' : Fin n → ℚ) (c : Cone) : CD :=
  ⟨(-1) ^ n * (absDet n c.rays : ℚ), ⟨pair c.vertex l, pair c.vertex e, pair c.vertex e'⟩,
    c.rays.map fun r => ⟨pair r l, pair r e, pair r e'⟩⟩

theorem neg_prod (rs : List (List Int)) (f : List Int → ℚ) : (rs.map fun r => -f r).prod = (-1) ^ rs.length * (rs.map f).prod := by
  induction rs with
  | nil => simp
  | cons r rs ih => simp only [List.map_cons, List.prod_cons, ih, List.length_cons, pow_succ]; ring

/-- the line `x + ε w` through a polynomial -/
noncomputable def linePoly {n : Nat} (x w : Fin n → ℚ) (I : MvPolynomial (Fin n) ℚ) : Polynomial ℚ :=
  MvPolynomial.aeval (fun i => Polynomial.C (x i) + Polynomial.C (w i) * Polynomial.X) I

theorem linePoly_eval {n : Nat} (x w : Fin n → ℚ) (I : MvPolynomial (Fin n) ℚ) (t : ℚ) :
    (linePoly x w I).eval t = MvPolynomial.eval (fun i => x i + t * w i) I := by
  unfold linePoly
  induction I using MvPolynomial.induction_on with
  | C a => simp
  | add p q hp hq => simp only [map_add, Polynomial.eval_add, hp, hq]
  | mul_X p i hp =>
    simp only [map_mul, Polynomial.eval_mul, hp, MvPolynomial.aeval_X, MvPolynomial.eval_X, Polynomial.eval_add, Polynomial.eval_C, Polynomial.eval_X]
    ring

/-- the sum computed from any perturbation that resolves the poles is the value of the polynomial. -/
theorem lawrence_value (n m : Nat) (cones : List Cone) (hok : ConesOk n cones) (I : MvPolynomial (Fin n) ℚ) (hI : LawrenceFormula n m cones I)
    (l : List Int) (hl : l.length = n) (hm : 1 ≤ m ∨ ∃ x ∈ l, x ≠ 0) (e : List Int) (hres : ∀ c ∈ cones, Resolves l e c) :
    (-1) ^ n * (cones.map (coneVal n n m l e)).sum = MvPolynomial.eval (vecQ n l) I := by
  obtain ⟨w, hw⟩ := exists_generic n (cones.flatMap (·.rays)) (by
    intro r hr
    obtain ⟨c, hc, hr⟩ := List.mem_flatMap.1 hr
    exact ray_nonzero n c.rays (hok c hc).2.1 (hok c hc).2.2.2 r hr)
  have hw' : ∀ c ∈ cones, ∀ r ∈ c.rays, pair r w ≠ 0 := fun c hc r hr => hw r (List.mem_flatMap.2 ⟨c, hc, hr⟩)
  let L := vecQ n l
  let e0 := vecQ n e
  let E : Polynomial ℚ := ((cones.flatMap (·.rays)).map fun r => Polynomial.C (pair r e0) + Polynomial.C (pair r w) * Polynomial.X).prod
  have hE : E ≠ 0 := by
    apply List.prod_ne_zero
    intro h0
    obtain ⟨r, hr, he⟩ := List.mem_map.1 h0
    have := congrArg (Polynomial.coeff · 1) he
    simp at this
    exact hw r hr this
  have hEv : ∀ s, E.eval s ≠ 0 → ∀ c ∈ cones, ∀ r ∈ c.rays, pair r e0 + s * pair r w ≠ 0 := by
    intro s hs c hc r hr h0
    apply hs
    simp only [E]
    rw [Polynomial.eval_list_prod, List.map_map]
    apply List.prod_eq_zero
    apply List.mem_map.2
    refine ⟨r, List.mem_flatMap.2 ⟨c, hc, hr⟩, ?_⟩
    simp only [Function.comp, Polynomial.eval_add, Polynomial.eval_mul, Polynomial.eval_C, Polynomial.eval_X]
    rw [mul_comm]; exact h0
  have hdl : ∀ c ∈ cones, ∀ r ∈ c.rays, ((dot l r : Int) : ℚ) = pair r L := by
    intro c hc r hr
    rw [dot_comm, dot_pair n r l (by rw [(hok c hc).2.2.1 r hr])]
  have hde : ∀ c ∈ cones, ∀ r ∈ c.rays, ((dot e r : Int) : ℚ) = pair r e0 := by
    intro c hc r hr
    rw [dot_comm, dot_pair n r e (by rw [(hok c hc).2.2.1 r hr])]
  have hvl : ∀ c ∈ cones, ((dot c.vertex l : Int) : ℚ) = pair c.vertex L := by
    intro c hc
    rw [dot_pair n c.vertex l (by rw [(hok c hc).1])]
  have hve : ∀ c ∈ cones, ((dot e c.vertex : Int) : ℚ) = pair c.vertex e0 := by
    intro c hc
    rw [dot_comm, dot_pair n c.vertex e (by rw [(hok c hc).1])]
  have main := limit_sum (m + n) (MvPolynomial.eval L I) (cones.map (coneCD n L e0 w)) E hE
    (by
      intro s hs c hc x hx _
      obtain ⟨c, hc', rfl⟩ := List.mem_map.1 hc; replace hc := hc'
      obtain ⟨r, hr, rfl⟩ := List.mem_map.1 hx
      exact hEv s hs c hc r hr)
    (by
      intro c hc hv x hx h0
      obtain ⟨c, hc', rfl⟩ := List.mem_map.1 hc; replace hc := hc'
      obtain ⟨r, hr, rfl⟩ := List.mem_map.1 hx
      simp only [coneCD] at hv h0 ⊢
      have := hres c hc (by intro hh; apply hv; rw [← hvl c hc, hh]; simp) r hr (by
        have := hdl c hc r hr; rw [h0] at this; exact_mod_cast this)
      rw [← hde c hc r hr]; exact_mod_cast this)
    (by
      intro c hc _
      obtain ⟨c, hc', rfl⟩ := List.mem_map.1 hc; replace hc := hc'
      simp only [coneCD]
      have hlen := (hok c hc).2.1
      have hle := List.length_filter_le (fun x : Ent => decide (x.a = 0)) (c.rays.map fun r => (⟨pair r L, pair r e0, pair r w⟩ : Ent))
      rw [List.length_map, hlen] at hle
      rcases hm with hm | hm
      · omega
      · obtain ⟨r, hr, hr0⟩ := not_all_orthogonal n c.rays hlen (hok c hc).2.2.2 l hl hm
        have : (List.filter (fun x : Ent => decide (x.a = 0)) (c.rays.map fun r => (⟨pair r L, pair r e0, pair r w⟩ : Ent))).length
            < (c.rays.map fun r => (⟨pair r L, pair r e0, pair r w⟩ : Ent)).length := by
          apply List.length_filter_lt_length_iff_exists.2
          refine ⟨_, List.mem_map_of_mem hr, ?_⟩
          simp only [decide_eq_true_eq]
          rw [← hdl c hc r hr]; exact_mod_cast hr0
        rw [List.length_map, hlen] at this
        omega)
    (by
      intro s hs
      have hg := generic_sum (m + n) (linePoly L (fun i => e0 i + s * w i) I)
        (cones.map fun c => coneCD n L (fun i => e0 i + s * w i) w c)
        (by
          intro c hc x hx _
          obtain ⟨c, hc', rfl⟩ := List.mem_map.1 hc; replace hc := hc'
          obtain ⟨r, hr, rfl⟩ := List.mem_map.1 hx
          simp only [pair_add]
          exact hEv s hs c hc r hr)
        (by
          intro t ht
          rw [linePoly_eval, hI]
          · rw [List.map_map]
            congr 1
            apply List.map_congr_left
            intro c hc
            simp only [Function.comp, coneCD, List.map_map]
            rw [neg_prod c.rays (fun r => pair r fun i => L i + t * (e0 i + s * w i)), (hok c hc).2.1]
            simp only [pair_add, Function.comp_def]
            have h1 : ((-1 : ℚ) ^ n) * (-1) ^ n = 1 := by rw [← mul_pow]; simp
            have h2 : ((-1 : ℚ) ^ n) ≠ 0 := by simp
            rw [div_eq_mul_inv, div_eq_mul_inv, mul_inv]
            have h3 : ((-1 : ℚ) ^ n)⁻¹ = (-1) ^ n := inv_eq_of_mul_eq_one_left h1
            rw [h3]; ring
          · intro c hc r hr
            have := ht _ (List.mem_map_of_mem hc) ⟨pair r L, pair r (fun i => e0 i + s * w i), pair r w⟩ (by
              simp only [coneCD]; exact List.mem_map_of_mem hr)
            simpa only [pair_add] using this)
      rw [linePoly_eval] at hg
      simp only [zero_mul, add_zero] at hg
      rw [hg, List.map_map, List.map_map]
      congr 1
      apply List.map_congr_left
      intro c hc
      simp only [Function.comp, coneCD, CD.at, ents, List.map_map, pair_add, Function.comp_def, zero_mul, add_zero])
  rw [main, List.map_map, ← List.sum_map_mul_left]
  congr 1
  apply List.map_congr_left
  intro c hc
  unfold coneVal
  have hva : (coneCD n L e0 w c).v.a = ((dot c.vertex l : Int) : ℚ) := (hvl c hc).symm
  rw [Function.comp]
  by_cases hz : dot c.vertex l = 0
  · rw [if_pos hz, if_pos (by rw [hva]; exact_mod_cast hz), mul_zero]
  · rw [if_neg hz, if_neg (by rw [hva]; exact_mod_cast hz)]
    unfold CD.at numPS denPS
    simp only [coneCD, zero_mul, add_zero]
    rw [hvl c hc, hve c hc, mul_assoc]
    congr 3
    unfold linProd ents
    rw [List.map_map, List.map_map]
    congr 1
    apply List.map_congr_left
    intro r hr
    simp only [Function.comp, zero_mul, add_zero]
    rw [hdl c hc r hr, hde c hc r hr]

/-- C48: after any history of the container, whatever the random draws, if the search for a perturbation of `l` ends then
the integration step does not fail and returns the value at `l` of the polynomial given by Lawrence's formula. -/
theorem c48_integratePolytope (n m : Nat) (cones : List Cone) (hok : ConesOk n cones) (I : MvPolynomial (Fin n) ℚ) (hI : LawrenceFormula n m cones I)
    (ts : List LTerm) (hts : ts.map (·.cone) = cones) (hw : ∀ t ∈ ts, t.rdp.length = n)
    (l : List Int) (hl : l.length = n) (hm : 1 ≤ m ∨ ∃ x ∈ l, x ≠ 0) (hb : m + n < 2 ^ 20) (draws : List Nat)
    (ts' : List LTerm) (ds : List Nat) (h : findPerturbation n l draws ts = some (ts', ds)) :
    ∃ ts'', integratePolytope m n ts' = some (ts'', MvPolynomial.eval (vecQ n l) I) ∧ ts''.map (·.cone) = cones ∧
      ∀ t ∈ ts'', t.rdp.length = n := by
  have hwf : ∀ t ∈ ts, Wf n t := fun t ht => ⟨hw t ht, (hok t.cone (by rw [← hts]; exact List.mem_map_of_mem ht)).2.1⟩
  subst hl
  obtain ⟨h1, h2, e, h3⟩ := findPerturbation_spec l.length l draws ts hwf ts' ds h
  rw [hts] at h1
  obtain ⟨ts'', g1, g2, g3⟩ := integrateLoop_spec l.length l.length m l e hb ts' 0 h2 h3
  refine ⟨ts'', ?_, by rw [g2, h1], fun t ht => (g3 t ht).rdp⟩
  have hv := lawrence_value l.length m cones hok I hI l rfl hm e (by
    intro c hc
    rw [← h1] at hc
    obtain ⟨t, ht, rfl⟩ := List.mem_map.1 hc
    exact (h3 t ht).res)
  unfold integratePolytope
  rw [g1, h1]
  simp only [Option.map_some, zero_add, Option.some.injEq, Prod.mk.injEq, true_and]
  rw [← hv]
  split_ifs with hodd
  · rw [Odd.neg_one_pow (Nat.odd_iff.2 (by omega))]; ring
  · rw [Even.neg_one_pow (Nat.even_iff.2 (by omega))]; ring

theorem formsLoop_spec (n : Nat) (cones : List Cone) (hok : ConesOk n cones) (I : Nat → MvPolynomial (Fin n) ℚ)
    (fs : List Form) (hI : ∀ f ∈ fs, LawrenceFormula n f.m cones (I f.m))
    (hf : ∀ f ∈ fs, f.l.length = n ∧ (1 ≤ f.m ∨ ∃ x ∈ f.l, x ≠ 0) ∧ f.m + n < 2 ^ 20) :
    ∀ (draws : List Nat) (ts : List LTerm) (ans v : ℚ), ts.map (·.cone) = cones → (∀ t ∈ ts, t.rdp.length = n) →
    formsLoop n n n fs draws ts ans = some v →
    v = ans + (fs.map fun f => f.coe * MvPolynomial.eval (vecQ n f.l) (I f.m) / ((n + f.m).factorial : ℚ)).sum := by
  induction fs with
  | nil => intro draws ts ans v _ _ h; simp [formsLoop] at h; simp [h]
  | cons f fs ih =>
    intro draws ts ans v hts hw h
    obtain ⟨f1, f2, f3⟩ := hf f (by simp)
    rw [formsLoop] at h
    cases hfp : findPerturbation n f.l draws ts with
    | none => rw [hfp] at h; simp at h
    | some q =>
      obtain ⟨ts', ds⟩ := q
      obtain ⟨ts'', g1, g2, g3⟩ := c48_integratePolytope n f.m cones hok (I f.m) (hI f (by simp)) ts hts hw f.l f1 f2 f3 draws ts' ds hfp
      rw [hfp, Option.bind_some] at h
      simp only at h
      rw [g1, Option.bind_some] at h
      simp only at h
      have := ih (fun f hf => hI f (by simp [hf])) (fun g hg => hf g (by simp [hg])) ds ts'' _ v g2 g3 h
      rw [this, Latte.Residue.fact_fold, List.map_cons, List.sum_cons]
      push_cast
      ring

/-- C48: the integral of a sum of powers of linear forms. For every list of forms (power `m`, coefficient stored with the
factor `m!`) and every sequence of random draws, an answer, if any, is `∑ coe · I_m(l) / (m+n)!`. -/
theorem c48_findIntegral (n : Nat) (cones : List Cone) (hne : cones ≠ []) (hok : ConesOk n cones) (I : Nat → MvPolynomial (Fin n) ℚ)
    (fs : List Form) (hI : ∀ f ∈ fs, LawrenceFormula n f.m cones (I f.m))
    (hf : ∀ f ∈ fs, f.l.length = n ∧ (1 ≤ f.m ∨ ∃ x ∈ f.l, x ≠ 0) ∧ f.m + n < 2 ^ 20)
    (draws : List Nat) (v : ℚ) (h : findIntegralUsingLawrence n n cones fs draws = some v) :
    v = (fs.map fun f => f.coe * MvPolynomial.eval (vecQ n f.l) (I f.m) / ((n + f.m).factorial : ℚ)).sum := by
  have hnr : numOfRays cones = n := by
    cases cones with
    | nil => exact absurd rfl hne
    | cons c cs => exact (hok c (by simp)).2.1
  unfold findIntegralUsingLawrence at h
  split_ifs at h with h0
  · simp at h; subst h0; simp [← h]
  · rw [hnr] at h
    have := formsLoop_spec n cones hok I fs hI hf draws (setListCones cones) 0 v (by simp [setListCones, Function.comp_def]) (by
      intro t ht
      obtain ⟨c, _, rfl⟩ := List.mem_map.1 ht
      simp [hnr]) h
    rw [this, zero_add]

end Latte.Lawrence
