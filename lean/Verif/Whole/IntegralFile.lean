import Verif.Whole.IntegralMain

/-! # C94: integrals over the polytope in a file: the theorems about files -/

namespace Verif.Whole

open MeasureTheory Verif.Barvinok Verif.Barvinok.Spec Verif.Ti2 Verif.Brion Verif.Files Verif.Preprocess Verif.Valuation Latte.RatVec
open Verif.ExpSubst (Fail)
open Verif.Trie (Term insertAll emptySum drain begin' monoPoly formsPoly linFormPoly)
open Verif.Products (NonzeroOnDilate)

variable {n m d : ℕ}

/-- The vertex cones, as the rest of the program needs them. -/
theorem rows_cones {T : Tools} (hT : T.Ok) (l : List (Row (d + 1))) (hb : Bornology.IsBounded (Polyhedron (pairs l)))
    (hi : (interior (Polyhedron (pairs l))).Nonempty) :
    ∃ cones : List (GCone (d + 1)), (CddV.computeVertexCones (T.vertices (d + 1) (pairs l)).1 (T.vertices (d + 1) (pairs l)).2 : CddV.Outcome (d + 1)) = .cones cones ∧
      PolytopeCones d cones ∧ polytope (d + 1) (cones.map toVCone) = Polyhedron (pairs l) ∧
      ∀ C ∈ cones, CddV.real C.vertex ∈ (Polyhedron (pairs l)).extremePoints ℝ := by
  have h2 := two_vertices (hT.vertices (d + 1) (pairs l)) hb hi
  obtain ⟨cones, e1, e2, e3, e4⟩ := CddV.c88_cones (Nat.succ_pos d) (hT.vertices (d + 1) (pairs l)) hb h2
  have hne : cones ≠ [] := by
    rintro rfl
    have := congrArg List.length e2
    simp only [List.map_nil, List.length_nil, List.length_map] at this
    omega
  have heq := polytope_eq (pairs l) hb cones e3
  refine ⟨cones, e1, ⟨tangentCones (pairs l) hb cones hne e3 fun C hC => (e4 C hC).2.2.1, fun C hC => spans_rays (pairs l) hi C.vertex C.rays (e4 C hC).2.2.1,
    by rw [heq]; exact hi⟩, heq, fun C hC => ?_⟩
  rw [polyhedron_eq, ← e3.mem]
  exact ⟨C.vertex, List.mem_map_of_mem hC, rfl⟩

theorem integralRows_cones {T : Tools} (hT : T.Ok) (l : List (Row (d + 1))) (hb : Bornology.IsBounded (Polyhedron (pairs l)))
    (hi : (interior (Polyhedron (pairs l))).Nonempty) :
    ∃ cones : List (GCone (d + 1)), PolytopeCones d cones ∧ polytope (d + 1) (cones.map toVCone) = Polyhedron (pairs l) ∧
      (∀ C ∈ cones, CddV.real C.vertex ∈ (Polyhedron (pairs l)).extremePoints ℝ) ∧
      ∀ ty o L garbage line, integralRows T ty o L garbage line (d + 1) l = computeIntegral T ty o L garbage line d (cones.map toVCone) := by
  obtain ⟨cones, e1, h1, h2, h3⟩ := rows_cones hT l hb hi
  refine ⟨cones, h1, h2, h3, fun ty o L garbage line => ?_⟩
  unfold integralRows
  change (match (CddV.computeVertexCones (T.vertices (d + 1) (pairs l)).1 (T.vertices (d + 1) (pairs l)).2 : CddV.Outcome (d + 1)) with
    | .done (some k) => VolumeEnding.ended (.number k)
    | .done none => .ended .noNumber
    | .stop => .ended .stop
    | .undefined => .ended .undefined
    | .cones cones => computeIntegral T ty o L garbage line d (cones.map toVCone)) = _
  rw [e1]

/-- The file with a full-dimensional polytope. -/
theorem integralFile_cones {T : Tools} (hT : T.Ok) (P : Empty.Problem (d + 1)) (h : P.Ok) (hs : Small P) (h0 : P.rows ≠ []) (hf : P.nonnegFirst = false)
    (hb : Bornology.IsBounded P.Solutions) (hi : (interior P.Solutions).Nonempty) :
    ∃ cones : List (GCone (d + 1)), PolytopeCones d cones ∧ polytope (d + 1) (cones.map toVCone) = P.Solutions ∧
      (∀ C ∈ cones, CddV.real C.vertex ∈ P.Solutions.extremePoints ℝ) ∧
      ∀ ty o L garbage hermite t, integralFile T ty o L garbage hermite (text P) t = computeIntegral T ty o L garbage (firstLine t) d (cones.map toVCone) := by
  obtain ⟨l, e, hl⟩ := fileRows_full hT P h hs h0 hf hi
  rw [← hl] at hb hi ⊢
  obtain ⟨cones, h1, h2, hx, h3⟩ := integralRows_cones hT l hb hi
  refine ⟨cones, h1, h2, hx, fun ty o L garbage hermite t => ?_⟩
  unfold integralFile
  rw [e hermite]
  exact h3 ty o L garbage (firstLine t)

/-- **C94: integrals of polynomials are right.** For every file that describes a polytope with interior points and every file with a polynomial, with each of the options, whatever the
triangulations and the random numbers are: all answers printed are the integral of the polynomial over the polytope, one for each method, and the methods never disagree. -/
theorem c94_monomials {T : Tools} (hT : T.Ok) (hu : TriangulationUses T) (hn : 0 < n) (hn' : n < 1000) (P : Empty.Problem n) (h : P.Ok) (hs : Small P)
    (h0 : P.rows ≠ []) (hf : P.nonnegFirst = false) (hb : Bornology.IsBounded P.Solutions) (hi : (interior P.Solutions).Nonempty)
    (xs : List (Term ℚ)) (hx : PolyIn n xs) (hdeg : ∀ x ∈ xs, x.exps.sum + n < 2 ^ 20) :
    ∃ N, ∀ (o : IntegralOption) (L : IntegralLimits) (garbage : ℕ → ℤ) (hermite : ℕ), N ≤ L.fuel → N ≤ L.rounds →
      integralFile T .monomials o L garbage hermite (text P) (monomialsText xs) ≠ .differ ∧
      ∀ answers, integralFile T .monomials o L garbage hermite (text P) (monomialsText xs) = .answers answers →
        RightIntegrals .monomials o (monomialsAt xs) P.Solutions answers := by
  obtain ⟨d, rfl⟩ := Nat.exists_eq_succ_of_ne_zero hn.ne'
  obtain ⟨cones, h1, h2, -, h3⟩ := integralFile_cones hT P h hs h0 hf hb hi
  obtain ⟨N, hN⟩ := polynomial_right hT.triangulate hu hn' cones h1 xs hx hdeg
  refine ⟨N, fun o L garbage hermite a b => ?_⟩
  rw [h3, ← h2]
  exact hN o L garbage a b

/-- **C94: integrals of powers of linear forms are right.** -/
theorem c94_linear_forms {T : Tools} (hT : T.Ok) (hu : TriangulationUses T) (hn : 0 < n) (hn' : n < 1000) (P : Empty.Problem n) (h : P.Ok) (hs : Small P)
    (h0 : P.rows ≠ []) (hf : P.nonnegFirst = false) (hb : Bornology.IsBounded P.Solutions) (hi : (interior P.Solutions).Nonempty)
    (xs : List (Term ℚ)) (hne : ∃ x ∈ xs, x.coef ≠ 0) (hx : ∀ x ∈ xs, 0 ≤ x.degree ∧ x.exps.length = n) (hdeg : ∀ x ∈ xs, x.degree + n < 2 ^ 20) :
    ∃ N, ∀ (o : IntegralOption) (L : IntegralLimits) (garbage : ℕ → ℤ) (hermite : ℕ), N ≤ L.fuel → N ≤ L.rounds →
      integralFile T .linearForms o L garbage hermite (text P) (formsText xs) ≠ .differ ∧
      ∀ answers, integralFile T .linearForms o L garbage hermite (text P) (formsText xs) = .answers answers →
        RightIntegrals .linearForms o (powersAt xs) P.Solutions answers := by
  obtain ⟨d, rfl⟩ := Nat.exists_eq_succ_of_ne_zero hn.ne'
  obtain ⟨cones, h1, h2, -, h3⟩ := integralFile_cones hT P h hs h0 hf hb hi
  obtain ⟨N, hN⟩ := forms_right hT.triangulate hu hn' cones h1 xs hne hx hdeg
  refine ⟨N, fun o L garbage hermite a b => ?_⟩
  rw [h3, ← h2]
  exact hN o L a b

theorem takeWhile_rest (p : Char → Bool) (a rest : List Char) (c : Char) (hc : p c = false) : (a ++ [c] ++ rest).takeWhile p = (a ++ [c]).takeWhile p := by
  induction a with
  | nil => simp [hc]
  | cons x xs ih =>
    simp only [List.cons_append, List.takeWhile_cons]
    split
    · rw [List.append_assoc] at ih ⊢
      simpa using ih
    · rfl

/-- **C94: only the first line of the file with the integrand counts.** -/
theorem c94_first_line (T : Tools) (ty : IntegrandType) (o : IntegralOption) (L : IntegralLimits) (garbage : ℕ → ℤ) (hermite : ℕ) (s line rest : List Char) :
    integralFile T ty o L garbage hermite s (line ++ ['\n'] ++ rest) = integralFile T ty o L garbage hermite s (line ++ ['\n']) := by
  unfold integralFile firstLine
  rw [takeWhile_rest _ line rest '\n' (by decide)]

theorem calls_dilated {T : Tools} (htri : TriangulationTotal T) (vs : List VCone) (hv : ∀ c ∈ vs, VertexOk (d + 1) c.vertex)
    (hi : (interior (polytope (d + 1) vs)).Nonempty) : callsFail (d + 2) (T.triangulate (d + 1)) 0 [liftedCone (d + 1) (dilated vs)] = none := by
  refine calls_total htri _ fun c hc => ?_
  rw [List.mem_singleton.1 hc]
  obtain ⟨hD, -⟩ := dilationFactorVertexRays_spec (d + 1) vs hv
  have hDR : (0:ℝ) < dilationFactorVertexRays vs := by exact_mod_cast hD
  obtain ⟨h1, h2⟩ := dilated_rays vs hv
  refine spans_of_hull _ (fun r hr => ⟨(h1 r hr).1, by rw [(h1 r hr).2]; exact one_pos⟩) ?_
  rw [hull_eq_smul (d + 1) _ vs _ h2, interior_smul₀ hDR.ne']
  exact hi.smul_set

/-- **C94: `--polynomial-as-plf` prints an answer in the orthant.** If the triangulation goes through and the polytope lies in the orthant, an answer is printed, and it is the integral. -/
theorem c94_plf_total {T : Tools} (hT : T.Ok) (hu : TriangulationUses T) (htri : TriangulationTotal T) (hn : 0 < n) (hn' : n < 1000) (P : Empty.Problem n) (h : P.Ok) (hs : Small P)
    (h0 : P.rows ≠ []) (hf : P.nonnegFirst = false) (hb : Bornology.IsBounded P.Solutions) (hi : (interior P.Solutions).Nonempty) (hpos : ∀ x ∈ P.Solutions, ∀ j, 0 ≤ x j)
    (xs : List (Term ℚ)) (hx : PolyIn n xs) (hdeg : ∀ x ∈ xs, x.exps.sum + n < 2 ^ 20) :
    ∃ (v : ℚ) (N : ℕ), (v : ℝ) = ∫ x in P.Solutions, monomialsAt xs x ∧ ∀ (L : IntegralLimits) (garbage : ℕ → ℤ) (hermite : ℕ), N ≤ L.fuel → N ≤ L.rounds →
      integralFile T .monomials .polynomialAsPlf L garbage hermite (text P) (monomialsText xs) = .answers [v] := by
  obtain ⟨N₁, hN₁⟩ := c94_monomials hT hu hn hn' P h hs h0 hf hb hi xs hx hdeg
  obtain ⟨d, rfl⟩ := Nat.exists_eq_succ_of_ne_zero hn.ne'
  obtain ⟨cones, h1, h2, -, h3⟩ := integralFile_cones hT P h hs h0 hf hb hi
  have hv := h1.tangent.vertex
  have hcalls := calls_dilated htri _ hv h1.interior
  have hE := engineOk hT.triangulate hu _ hv h1.interior hcalls
  obtain ⟨poly, N₂, e, -, htot⟩ := plf_right (Nat.succ_pos d) _ hv hE xs hx
  have htot := htot fun t _ ht => nonzero_orthant _ hv hE (by rw [h2]; exact hpos) t ht
  have key : ∀ (L : IntegralLimits) (garbage : ℕ → ℤ) (hermite : ℕ), max N₁ N₂ ≤ L.fuel → max N₁ N₂ ≤ L.rounds → ∃ v : ℚ,
      integralFile T .monomials .polynomialAsPlf L garbage hermite (text P) (monomialsText xs) = .answers [v] := by
    intro L garbage hermite a b
    obtain ⟨r, p', hr⟩ := htot L.fuel L.rounds (by omega) (by omega)
    refine ⟨r, ?_⟩
    rw [h3]
    unfold computeIntegral computePolynomial
    dsimp only
    rw [load_monomials (Nat.succ_pos d) xs hx garbage, e]
    dsimp only
    rw [onLifted_some hcalls hr]
    simp [conclude]
  obtain ⟨v, hv₀⟩ := key ⟨max N₁ N₂, max N₁ N₂, [], []⟩ (fun _ => 0) 0 le_rfl le_rfl
  have hval := ((hN₁ .polynomialAsPlf ⟨max N₁ N₂, max N₁ N₂, [], []⟩ (fun _ => 0) 0 (le_max_left _ _) (le_max_left _ _)).2 _ hv₀).2 v (by simp)
  refine ⟨v, max N₁ N₂, hval, fun L garbage hermite a b => ?_⟩
  obtain ⟨w, hw⟩ := key L garbage hermite a b
  have hwv := ((hN₁ .polynomialAsPlf L garbage hermite (by omega) (by omega)).2 _ hw).2 w (by simp)
  rw [hw, show w = v by exact_mod_cast hwv.trans hval.symm]

/-- The methods modelled in C75 use only the rays of the cone. -/
theorem c94_triangulation_uses (dd : Regular.DD) (hdd : Regular.DDOk dd) (alg : Regular.RayAlg) (ha : Regular.RayAlgOk alg) (lindep : List (Vec n) → List ℤ → Bool)
    (hl : Regular.LindepOk lindep) (P : Regular.TriParams n) (hM : 1 ≤ P.maxHeight) (hp : P.prescribed = none) (g : Regular.Rng) (hg : g.Ok) (fuel : ℕ)
    (l : List (Vec n)) (k : ℕ) (parts : List (List (Vec n))) (k' : ℕ) (hs : Regular.Spans l)
    (h : Regular.triangulateCone dd alg lindep P g fuel l k = .ok (parts, k')) : ∀ p ∈ parts, ∀ r ∈ p, r ∈ l := by
  unfold Regular.triangulateCone at h
  by_cases h1 : P.assumeFulldim = true ∧ n = l.length
  · rw [if_pos h1] at h
    cases h
    intro p hp r hr
    rw [List.mem_singleton.1 hp] at hr
    exact hr
  · rw [if_neg h1] at h
    cases hm : P.method with
    | cddlib => rw [hm] at h; exact (Regular.triangulateCdd_subdivides dd hdd g hg _ _ hM fuel (.random P.maxHeight) l k parts k' hs hM h).2.2
    | delone => rw [hm] at h; exact (Regular.triangulateCdd_subdivides dd hdd g hg _ _ hM fuel .delone l k parts k' hs trivial h).2.2
    | fortytwo =>
      rw [hm] at h
      exact (Regular.triangulate4ti2_subdivides alg ha lindep hl g hg _ _ hM fuel P.fortytwoHeight l k parts k' hs
        (Regular.TriParams.Ok.heights ⟨hM, fun t ht => by rw [hp] at ht; cases ht⟩) h).2.1

end Verif.Whole
