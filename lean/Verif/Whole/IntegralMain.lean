import Verif.Whole.IntegralPlf

/-! # C94: integrals over the polytope in a file: main theorems -/

namespace Verif.Whole

open MeasureTheory Verif.Barvinok Verif.Barvinok.Spec Verif.Ti2 Verif.Brion Verif.Files Verif.Preprocess Verif.Valuation Latte.RatVec
open Verif.ExpSubst (Fail)
open Verif.Trie (Term insertAll emptySum drain begin' monoPoly formsPoly linFormPoly)
open Verif.Trie.Text (loadMonomials loadLinForms printTerms printMono printForm rescale joinTerms)
open Verif.Products (NonzeroOnDilate)

variable {n m d : ℕ}

/-! ## The text of integrands -/

theorem no_newline (pr : Term ℚ → List Char) (hp : ∀ t, '\n' ∉ pr t) : ∀ xs : List (Term ℚ), '\n' ∉ joinTerms pr xs
  | [] => by simp [joinTerms]
  | [t] => by simpa [joinTerms] using hp t
  | t :: u :: ts => by
    have := no_newline pr hp (u :: ts)
    simp only [joinTerms, List.mem_append, List.mem_cons, not_or]
    exact ⟨hp t, by decide, by decide, this⟩

theorem printMono_newline (t : Term ℚ) : '\n' ∉ printMono t := by
  simp only [printMono, List.mem_cons, List.mem_append, not_or]
  exact ⟨by decide, Trie.Text.printRat_no _ _ (by decide) (by decide) (by decide), by decide, by decide, by decide,
    Trie.Text.printVec_no _ _ (by decide) (by decide) (by decide) (by decide), by decide, by decide, by simp⟩

theorem printForm_newline (t : Term ℚ) : '\n' ∉ printForm t := by
  simp only [printForm, List.mem_cons, List.mem_append, not_or]
  exact ⟨by decide, Trie.Text.printRat_no _ _ (by decide) (by decide) (by decide), by decide, by decide, by decide,
    Trie.Text.printInt_no _ _ (by decide) (by decide), by decide, by decide, by decide,
    Trie.Text.printVec_no _ _ (by decide) (by decide) (by decide) (by decide), by decide, by decide, by decide, by simp⟩

theorem firstLine_text (pr : Term ℚ → List Char) (hp : ∀ t, '\n' ∉ pr t) (xs : List (Term ℚ)) (hne : xs ≠ []) :
    firstLine ((printTerms pr xs).getD [] ++ ['\n']) = (printTerms pr xs).getD [] := by
  obtain ⟨t, ts, rfl⟩ := List.exists_cons_of_ne_nil hne
  have h := no_newline pr hp (t :: ts)
  unfold firstLine
  rw [List.takeWhile_append_of_pos]
  · simp
  · intro c hc
    simp only [printTerms, Option.getD_some, List.mem_cons, List.mem_append] at hc
    simp only [decide_eq_true_eq]
    rintro rfl
    rcases hc with hc | hc | hc | hc
    · revert hc; decide
    · exact h hc
    · revert hc; decide
    · cases hc

/-- The polynomial in the file is loaded as it stands. -/
theorem load_monomials (hn : 0 < n) (xs : List (Term ℚ)) (hx : PolyIn n xs) (garbage : ℕ → ℤ) :
    loadMonomials garbage (firstLine (monomialsText xs)) = insertAll (emptySum ℚ n) xs := by
  unfold monomialsText
  rw [firstLine_text _ printMono_newline xs hx.ne]
  obtain ⟨text, h1, h2⟩ := Trie.Text.c25_parse_print n hn xs hx.ne (fun t ht => (hx.mono t ht).2.2.1) garbage
  rw [h1, Option.getD_some]
  unfold loadMonomials
  rw [h2]
  dsimp only
  rw [List.map_map]
  have : xs.map ((fun m : ℚ × List ℤ => (⟨m.1, m.2, -1⟩ : Term ℚ)) ∘ fun t => (t.coef, t.exps)) = xs := by
    conv_rhs => rw [← List.map_id xs]
    refine List.map_congr_left fun t ht => ?_
    have := (hx.mono t ht).2.1
    cases t
    simp only [Function.comp, id] at this ⊢
    rw [this]
  rw [this]
  rfl

/-- Forms are loaded with coefficients multiplied by the factorial of the degree. -/
theorem load_forms (hn : 0 < n) (xs : List (Term ℚ)) (hne : xs ≠ []) (hl : ∀ t ∈ xs, t.exps.length = n) :
    loadLinForms (firstLine (formsText xs)) = insertAll (emptySum ℚ n) (xs.map rescale) := by
  unfold formsText
  rw [firstLine_text _ printForm_newline xs hne]
  obtain ⟨text, h1, h2⟩ := Trie.Text.c47_parse_print_scales n hn xs hne hl
  rw [h1, Option.getD_some]
  unfold loadLinForms
  rw [h2]
  rfl

theorem polyAt_rescaled (xs : List (Term ℚ)) (x : Fin n → ℝ) : polyAt (formsPoly n (xs.map rescale)) x = powersAt xs x := by
  rw [polyAt_formsPoly, List.map_map]
  unfold powersAt
  congr 1
  refine List.map_congr_left fun t _ => ?_
  simp only [Function.comp]
  rw [polyAt_linFormPoly]
  unfold rescale
  dsimp only
  have : (t.degree.toNat.factorial : ℝ) ≠ 0 := by exact_mod_cast Nat.factorial_ne_zero _
  congr 1
  push_cast
  field_simp

/-! ## The methods -/

theorem onLifted_ok {T : Tools} {vs : List VCone} {f : (ℕ → VCone → List VCone) → PV → Option (ℚ × PV)} {v : ℚ} (h : onLifted T d vs f = .ok v) :
    callsFail (d + 2) (T.triangulate (d + 1)) 0 [liftedCone (d + 1) (dilated vs)] = none ∧
      ∃ p', f (engine (d + 2) (T.triangulate (d + 1))) (ofCones (d + 1) vs) = some (v, p') := by
  unfold onLifted at h
  split at h
  · cases h
  · rename_i hc
    split at h
    · cases h
    · rename_i w p' hf
      cases h
      exact ⟨hc, p', hf⟩

theorem onLifted_some {T : Tools} {vs : List VCone} {f : (ℕ → VCone → List VCone) → PV → Option (ℚ × PV)} {v : ℚ} {p' : PV}
    (hc : callsFail (d + 2) (T.triangulate (d + 1)) 0 [liftedCone (d + 1) (dilated vs)] = none)
    (hf : f (engine (d + 2) (T.triangulate (d + 1))) (ofCones (d + 1) vs) = some (v, p')) : onLifted T d vs f = .ok v := by
  unfold onLifted
  rw [hc]
  dsimp only
  rw [hf]

theorem onCones_ok {T : Tools} {vs : List VCone} {f : (ℕ → VCone → List VCone) → PV → Option (ℚ × PV)} {v : ℚ} (h : onCones T d vs f = .ok v) :
    callsFail (d + 1) (T.triangulate d) 0 vs = none ∧ ∃ p', f (engine (d + 1) (T.triangulate d)) (ofCones (d + 1) vs) = some (v, p') := by
  unfold onCones at h
  split at h
  · cases h
  · rename_i hc
    split at h
    · cases h
    · rename_i w p' hf
      cases h
      exact ⟨hc, p', hf⟩

/-- If all methods can only return the number `I`, then all answers printed are `I`, one for each method, and they do not differ. -/
theorem conclude_right (I : ℝ) : ∀ (ms : List (Except Fail ℚ)) (as : List ℚ), (∀ x ∈ ms, ∀ v : ℚ, x = .ok v → (v : ℝ) = I) → (∀ a ∈ as, (a : ℝ) = I) →
    conclude ms as ≠ .differ ∧ ∀ l, conclude ms as = .answers l → l.length = as.length + ms.length ∧ ∀ v ∈ l, (v : ℝ) = I
  | [], as, _, has => by
    unfold conclude
    rw [if_pos (fun a ha b hb => by have := (has a ha).trans (has b hb).symm; exact_mod_cast this)]
    refine ⟨nofun, fun l hl => ?_⟩
    cases hl
    exact ⟨rfl, has⟩
  | .error e :: ms, as, _, _ => ⟨nofun, nofun⟩
  | .ok v :: ms, as, hms, has => by
    unfold conclude
    obtain ⟨h1, h2⟩ := conclude_right I ms (as ++ [v]) (fun x hx => hms x (List.mem_cons_of_mem _ hx)) (by
      intro a ha
      rcases List.mem_append.1 ha with ha | ha
      · exact has a ha
      · rw [List.mem_singleton.1 ha]
        exact hms _ List.mem_cons_self v rfl)
    refine ⟨h1, fun l hl => ?_⟩
    obtain ⟨h3, h4⟩ := h2 l hl
    refine ⟨?_, h4⟩
    rw [h3, List.length_append, List.length_singleton, List.length_cons]
    omega

/-- **Specification.** The number of answers: one for each method. -/
def methodCount : IntegrandType → IntegralOption → ℕ
  | .monomials, .all => 3
  | .monomials, _ => 1
  | .linearForms, .coneDecompose => 1
  | .linearForms, _ => 2

/-- **Specification.** What is to be printed: one answer for each method, all of them the integral. -/
def RightIntegrals (ty : IntegrandType) (o : IntegralOption) (f : (Fin n → ℝ) → ℝ) (A : Set (Fin n → ℝ)) (l : List ℚ) : Prop :=
  l.length = methodCount ty o ∧ ∀ v ∈ l, (v : ℝ) = ∫ x in A, f x

/-- What is known about the cones of the polytope. -/
structure PolytopeCones (d : ℕ) (cones : List (GCone (d + 1))) : Prop where
  tangent : TangentCones (d + 1) (cones.map toVCone)
  spans : ∀ C ∈ cones, Regular.Spans C.rays
  interior : (interior (polytope (d + 1) (cones.map toVCone))).Nonempty

theorem polynomial_right {T : Tools} (hT : ∀ d t, Regular.TriangulationOk (T.triangulate d t)) (hu : TriangulationUses T) (hd : d + 1 < 1000)
    (cones : List (GCone (d + 1))) (hc : PolytopeCones d cones) (xs : List (Term ℚ)) (hx : PolyIn (d + 1) xs) (hdeg : ∀ x ∈ xs, x.exps.sum + (d + 1 : ℕ) < 2 ^ 20) :
    ∃ N, ∀ (o : IntegralOption) (L : IntegralLimits) (garbage : ℕ → ℤ), N ≤ L.fuel → N ≤ L.rounds →
      computePolynomial T o L garbage (firstLine (monomialsText xs)) d (cones.map toVCone) ≠ .differ ∧
      ∀ l, computePolynomial T o L garbage (firstLine (monomialsText xs)) d (cones.map toVCone) = .answers l →
        RightIntegrals .monomials o (monomialsAt xs) (polytope (d + 1) (cones.map toVCone)) l := by
  have hv := hc.tangent.vertex
  set vs := cones.map toVCone with hvs
  set I : ℝ := ∫ x in polytope (d + 1) vs, polyAt (monoPoly (d + 1) xs) x with hI
  obtain ⟨poly, e⟩ : ∃ poly, insertAll (emptySum ℚ (d + 1)) xs = some poly := by
    obtain ⟨s, -, -, e, -⟩ := drained (d + 1) (Nat.succ_pos d) xs hx
    exact ⟨s, e⟩
  -- triangulation
  have h1 : ∃ N₁, ∀ fuel rounds, N₁ ≤ fuel → N₁ ≤ rounds → ∀ v, onLifted T d vs (fun E p => findIntegralPoly E fuel rounds .triangulation [] [] poly p) = .ok v → (v : ℝ) = I := by
    by_cases hcalls : callsFail (d + 2) (T.triangulate (d + 1)) 0 [liftedCone (d + 1) (dilated vs)] = none
    · obtain ⟨poly', r, N, e', g, hr⟩ := integral_polynomial_full _ (d + 1) (Nat.succ_pos d) hd vs hv (engineOk hT hu vs hv hc.interior hcalls).dilate xs hx hdeg
      rw [e] at e'
      cases e'
      refine ⟨N, fun fuel rounds a b v hv' => ?_⟩
      obtain ⟨-, p', hf⟩ := onLifted_ok hv'
      obtain ⟨p'', hp, -⟩ := g fuel rounds a b [] []
      rw [hp] at hf
      cases hf
      exact hr
    · exact ⟨0, fun fuel rounds _ _ v hv' => absurd (onLifted_ok hv').1 hcalls⟩
  -- cones
  have h2 : ∃ N₂, ∀ fuel rounds, N₂ ≤ fuel → N₂ ≤ rounds → ∀ draws draws' v, onCones T d vs (fun E p => findIntegralPoly E fuel rounds .cone draws draws' poly p) = .ok v → (v : ℝ) = I := by
    by_cases hcalls : callsFail (d + 1) (T.triangulate d) 0 vs = none
    · obtain ⟨poly', N, e', g⟩ := c56_integral_polynomial _ (d + 1) (Nat.succ_pos d) vs hc.tangent (engine_cones _ (hT d) cones hc.spans hcalls) xs hx hdeg
      rw [e] at e'
      cases e'
      refine ⟨N, fun fuel rounds a b draws draws' v hv' => ?_⟩
      obtain ⟨-, p', hf⟩ := onCones_ok hv'
      exact g fuel rounds a b draws draws' v p' hf
    · exact ⟨0, fun fuel rounds _ _ draws draws' v hv' => absurd (onCones_ok hv').1 hcalls⟩
  -- products
  have h3 : ∃ N₃, ∀ fuel rounds, N₃ ≤ fuel → N₃ ≤ rounds → ∀ v, onLifted T d vs (fun E p => findIntegralPlf E fuel rounds poly p) = .ok v → (v : ℝ) = I := by
    by_cases hcalls : callsFail (d + 2) (T.triangulate (d + 1)) 0 [liftedCone (d + 1) (dilated vs)] = none
    · obtain ⟨poly', N, e', g, -⟩ := plf_right (Nat.succ_pos d) vs hv (engineOk hT hu vs hv hc.interior hcalls) xs hx
      rw [e] at e'
      cases e'
      refine ⟨N, fun fuel rounds a b v hv' => ?_⟩
      obtain ⟨-, p', hf⟩ := onLifted_ok hv'
      exact g fuel rounds a b v p' hf
    · exact ⟨0, fun fuel rounds _ _ v hv' => absurd (onLifted_ok hv').1 hcalls⟩
  obtain ⟨N₁, h1⟩ := h1
  obtain ⟨N₂, h2⟩ := h2
  obtain ⟨N₃, h3⟩ := h3
  refine ⟨max N₁ (max N₂ N₃), fun o L garbage hf hr => ?_⟩
  have hIx : I = ∫ x in polytope (d + 1) vs, monomialsAt xs x := by
    rw [hI]
    exact integral_congr_ae (Filter.Eventually.of_forall fun x => polyAt_mono (d + 1) xs x)
  unfold computePolynomial
  rw [load_monomials (Nat.succ_pos d) xs hx garbage, e]
  dsimp only
  unfold RightIntegrals
  rw [← hIx]
  have g1 := h1 L.fuel L.rounds (by omega) (by omega)
  have g2 := h2 L.fuel L.rounds (by omega) (by omega) L.draws L.draws'
  have g3 := h3 L.fuel L.rounds (by omega) (by omega)
  have hthree := conclude_right I [_, _, _] [] (List.forall_mem_cons.2 ⟨g1, List.forall_mem_cons.2 ⟨g2, List.forall_mem_cons.2 ⟨g3, by simp⟩⟩⟩) (by simp)
  have htwo := conclude_right I [_] [] (List.forall_mem_cons.2 ⟨g2, by simp⟩) (by simp)
  have hone := conclude_right I [_] [] (List.forall_mem_cons.2 ⟨g3, by simp⟩) (by simp)
  cases o with
  | all => exact hthree
  | coneDecompose => exact htwo
  | polynomialAsPlf => exact hone

theorem formsIn_rescale (xs : List (Term ℚ)) (hne : ∃ x ∈ xs, x.coef ≠ 0) (hx : ∀ x ∈ xs, 0 ≤ x.degree ∧ x.exps.length = n) : FormsIn n (xs.map rescale) := by
  refine ⟨?_, ?_⟩
  · obtain ⟨x, h1, h2⟩ := hne
    exact ⟨_, List.mem_map_of_mem h1, mul_ne_zero h2 (by exact_mod_cast Nat.factorial_ne_zero _)⟩
  · intro y hy
    obtain ⟨x, h1, rfl⟩ := List.mem_map.1 hy
    exact hx x h1

theorem forms_right {T : Tools} (hT : ∀ d t, Regular.TriangulationOk (T.triangulate d t)) (hu : TriangulationUses T) (hd : d + 1 < 1000)
    (cones : List (GCone (d + 1))) (hc : PolytopeCones d cones) (xs : List (Term ℚ)) (hne : ∃ x ∈ xs, x.coef ≠ 0)
    (hx : ∀ x ∈ xs, 0 ≤ x.degree ∧ x.exps.length = d + 1) (hdeg : ∀ x ∈ xs, x.degree + (d + 1 : ℕ) < 2 ^ 20) :
    ∃ N, ∀ (o : IntegralOption) (L : IntegralLimits), N ≤ L.fuel → N ≤ L.rounds →
      computeLinearForms T o L (firstLine (formsText xs)) d (cones.map toVCone) ≠ .differ ∧
      ∀ l, computeLinearForms T o L (firstLine (formsText xs)) d (cones.map toVCone) = .answers l →
        RightIntegrals .linearForms o (powersAt xs) (polytope (d + 1) (cones.map toVCone)) l := by
  have hv := hc.tangent.vertex
  have hfi := formsIn_rescale xs hne hx
  have hdeg' : ∀ y ∈ xs.map rescale, y.degree + (d + 1 : ℕ) < 2 ^ 20 := by
    intro y hy
    obtain ⟨x, h1, rfl⟩ := List.mem_map.1 hy
    exact hdeg x h1
  have hxs : xs ≠ [] := by
    rintro rfl
    obtain ⟨x, h, -⟩ := hne
    cases h
  set vs := cones.map toVCone with hvs
  set I : ℝ := ∫ x in polytope (d + 1) vs, polyAt (formsPoly (d + 1) (xs.map rescale)) x with hI
  obtain ⟨forms, e⟩ : ∃ forms, insertAll (emptySum ℚ (d + 1)) (xs.map rescale) = some forms := by
    obtain ⟨s, -, -, -, -, e, -⟩ := dilateLinearForms_spec (d + 1) (Nat.succ_pos d) _ hfi 1 one_ne_zero
    exact ⟨s, e⟩
  have h1 : ∃ N₁, ∀ fuel rounds, N₁ ≤ fuel → N₁ ≤ rounds → ∀ v, onLifted T d vs (fun E p => findIntegralForms E fuel rounds .triangulation [] [] forms p) = .ok v → (v : ℝ) = I := by
    by_cases hcalls : callsFail (d + 2) (T.triangulate (d + 1)) 0 [liftedCone (d + 1) (dilated vs)] = none
    · obtain ⟨poly', r, N, e', g, hr⟩ := integral_forms_dilate _ (d + 1) (Nat.succ_pos d) hd vs hv (engineOk hT hu vs hv hc.interior hcalls).dilate _ hfi hdeg'
      rw [e] at e'
      cases e'
      refine ⟨N, fun fuel rounds a b v hv' => ?_⟩
      obtain ⟨-, p', hf⟩ := onLifted_ok hv'
      obtain ⟨p'', hp⟩ := g fuel rounds a b [] []
      rw [hp] at hf
      cases hf
      exact hr
    · exact ⟨0, fun fuel rounds _ _ v hv' => absurd (onLifted_ok hv').1 hcalls⟩
  have h2 : ∃ N₂, ∀ fuel rounds, N₂ ≤ fuel → N₂ ≤ rounds → ∀ draws draws' v, onCones T d vs (fun E p => findIntegralForms E fuel rounds .cone draws draws' forms p) = .ok v → (v : ℝ) = I := by
    by_cases hcalls : callsFail (d + 1) (T.triangulate d) 0 vs = none
    · obtain ⟨poly', N, e', g⟩ := c56_integral_forms _ (d + 1) (Nat.succ_pos d) vs hc.tangent (engine_cones _ (hT d) cones hc.spans hcalls) _ hfi hdeg'
      rw [e] at e'
      cases e'
      refine ⟨N, fun fuel rounds a b draws draws' v hv' => ?_⟩
      obtain ⟨-, p', hf⟩ := onCones_ok hv'
      exact g fuel rounds a b draws draws' v p' hf
    · exact ⟨0, fun fuel rounds _ _ draws draws' v hv' => absurd (onCones_ok hv').1 hcalls⟩
  obtain ⟨N₁, h1⟩ := h1
  obtain ⟨N₂, h2⟩ := h2
  refine ⟨max N₁ N₂, fun o L hf hr => ?_⟩
  have hIx : I = ∫ x in polytope (d + 1) vs, powersAt xs x := by
    rw [hI]
    exact integral_congr_ae (Filter.Eventually.of_forall fun x => polyAt_rescaled xs x)
  unfold computeLinearForms
  rw [load_forms (Nat.succ_pos d) xs hxs (fun t ht => (hx t ht).2), e]
  dsimp only
  unfold RightIntegrals
  rw [← hIx]
  have g1 := h1 L.fuel L.rounds (by omega) (by omega)
  have g2 := h2 L.fuel L.rounds (by omega) (by omega) L.draws L.draws'
  have hboth := conclude_right I [_, _] [] (List.forall_mem_cons.2 ⟨g1, List.forall_mem_cons.2 ⟨g2, by simp⟩⟩) (by simp)
  have hone := conclude_right I [_] [] (List.forall_mem_cons.2 ⟨g2, by simp⟩) (by simp)
  cases o with
  | all => exact hboth
  | coneDecompose => exact hone
  | polynomialAsPlf => exact hboth

end Verif.Whole
