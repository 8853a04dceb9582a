import Verif.Whole.IntegralFile
import Verif.TopScript.Text
import Verif.TopScript.Cones

/-!
# C95: the script for the top coefficients of the Ehrhart quasi-polynomial, from the file

`integrate --valuation=top-ehrhart FILE`, with `--monomials=WEIGHT`, `--linear-forms=WEIGHT` or no weight: `mainValuationDriver`, `computeTopEhrhart`
(`code/latte/valuation/valuation.cpp`) and `TopEhrhart` (`code/latte/top-ehrhart/TopEhrhart.cpp`), from the text of the files to the Maple script.
-/

namespace Verif.Whole

open Verif.Barvinok Verif.Barvinok.Spec Verif.Ti2 Verif.Brion Verif.Files Verif.Preprocess Verif.Valuation Latte.RatVec Verif.TopScript
open Verif.ExpSubst (Fail)
open Verif.Trie (Term insertAll emptySum drain begin' monoPoly formsPoly linFormPoly decompose)
open Verif.Trie.Text (loadMonomials loadLinForms rescale)

variable {n m d : ℕ}

/-! ## Model -/

/-- The weight as given by the user: the text of a file, or nothing. -/
inductive WeightFile where
  | monomials (t : List Char)
  | linearForms (t : List Char)
  | nothing

/-- `loadMonomials`, `loadLinForms` of the first line, valuation.cpp:339, 351, 817. -/
def WeightFile.load (garbage : ℕ → ℤ) : WeightFile → Option Weight
  | .monomials t => (loadMonomials garbage (firstLine t)).map .polynomial
  | .linearForms t => (loadLinForms (firstLine t)).map .forms
  | .nothing => some .one

/-- valuation.cpp:326–365 `computeTopEhrhart`: the option is tested (constructor of `TopEhrhart`) before the weight is loaded. -/
def computeTopEhrhart (dual : GCone n → Except Fail (GCone n)) (tri : ℕ → List (Vec n) → ℕ → Except Fail (List (List (Vec n)) × ℕ)) (fuel rounds : ℕ) (garbage : ℕ → ℤ)
    (dir : List Char) (o : Options) (cones : List (GCone n)) (w : WeightFile) : Result :=
  if o.coefficients ≠ -1 ∧ o.coefficients ≤ 0 then .badOption
  else
    match w.load garbage with
    | none => .failed .abort
    | some w => computeTop dual tri fuel rounds dir o cones w

/-- How the program ends: in `TopEhrhart`, or before that. -/
inductive TopEnding where
  | result (r : Result)
  | ended (e : Ending)

/-- As `volumeRows` (C93), with the script instead of the volume. -/
def topRows (T : Tools) (dual : ∀ d, GCone d → Except Fail (GCone d)) (fuel rounds : ℕ) (garbage : ℕ → ℤ) (dir : List Char) (o : Options) (w : WeightFile) : ∀ d, List (Row d) → TopEnding
  | 0, _ => .ended .undefined
  | d + 1, rows =>
    let ineqs : List (ℤ × Vec (d + 1)) := rows.map fun r => (r.b, r.a)
    match (CddV.computeVertexCones (T.vertices (d + 1) ineqs).1 (T.vertices (d + 1) ineqs).2 : CddV.Outcome (d + 1)) with
    | .done (some k) => .ended (.number k)
    | .done none => .ended .noNumber
    | .stop => .ended .stop
    | .undefined => .ended .undefined
    | .cones cones => .result (computeTopEhrhart (dual (d + 1)) (T.triangulate d) fuel rounds garbage dir o cones w)

/-- **`integrate --valuation=top-ehrhart FILE`**, valuation.cpp:379–944; `s` is the text of `FILE`; `dual` is the dualization chosen by `--dualization` (dual.cpp:164–190). -/
def topFile (T : Tools) (dual : ∀ d, GCone d → Except Fail (GCone d)) (fuel rounds : ℕ) (garbage : ℕ → ℤ) (dir : List Char) (o : Options) (hermite : ℕ) (s : List Char) (w : WeightFile) :
    TopEnding :=
  match fileRows T hermite s with
  | .ended e => .ended e
  | .rows d l => topRows T dual fuel rounds garbage dir o w d l

/-! ## Specification -/

/-- **Specification.** The script describes the polytope `A` and the weight `f`: read by Maple it lists simplicial cones that represent `A` and powers of linear forms with sum `f`,
and asks for what the options say. -/
def Describes (s : List Char) (o : Options) (A : Set (Fin n → ℝ)) (f : (Fin n → ℝ) → ℝ) : Prop :=
  ∃ (cones : List ((Fin n → ℚ) × List (Vec n))) (forms : List (ℚ × ℕ × (Fin n → ℤ))), Says s n o cones forms ∧ Represent cones A ∧ ∀ x, formsAt forms x = f x

/-- **Specification.** The dualization gives as many facets as rays for simplicial cones. -/
def DualSquare (dual : GCone n → Except Fail (GCone n)) : Prop := ∀ C D : GCone n, C.facets = [] → C.rays.length = n → dual C = .ok D → D.rays.length = n

/-! ## Proofs -/

theorem dualSquare_4ti2 (alg : Rays) : DualSquare (n := n) (Ti2.dualizeCone alg) := by
  intro C D hf hl h
  unfold Ti2.dualizeCone at h
  rw [if_neg (by simp [hf]), if_pos hl] at h
  split at h
  · cases h
  · split at h
    · cases h
    · cases h
      simp [GCone.swap]

theorem dualSquare_cdd (cdd : Vrep.ConeCdd n) : DualSquare (n := n) (Vrep.dualizeConeCdd cdd) := by
  obtain ⟨alg, -⟩ := raysOk_satisfiable
  intro C D hf hl h
  rw [Vrep.simplicial_case cdd alg C hl] at h
  exact dualSquare_4ti2 alg C D hf hl h

theorem formsAt_formOf (ts : List (Term ℚ)) (x : Fin n → ℝ) : formsAt (ts.map (formOf n)) x = polyAt (formsPoly n ts) x := by
  rw [polyAt_formsPoly]
  unfold formsAt
  rw [List.map_map]
  congr 1
  refine List.map_congr_left fun t _ => ?_
  rw [polyAt_linFormPoly]
  simp [Function.comp, formOf]

/-- The vertex cones, as `TopEhrhart` needs them. -/
theorem top_cones {T : Tools} (hT : T.Ok) (P : Empty.Problem (d + 1)) (h : P.Ok) (hs : Small P) (h0 : P.rows ≠ []) (hf : P.nonnegFirst = false)
    (hb : Bornology.IsBounded P.Solutions) (hi : (interior P.Solutions).Nonempty) :
    ∃ cones : List (GCone (d + 1)),
      (∀ C ∈ cones, C.facets = [] ∧ C.subspace = [] ∧ C.equalities = [] ∧ Regular.Spans C.rays ∧ ∀ y : Fin (d + 1) → ℝ, y ∈ Regular.generated C.rays → -y ∈ Regular.generated C.rays → y = 0) ∧
      (∀ Ss, List.Forall₂ Stands cones Ss → Represent (Ss.flatten.map fun C => (C.vertex, C.rays)) P.Solutions) ∧
      ∀ dual fuel rounds garbage dir o hermite w, topFile T dual fuel rounds garbage dir o hermite (text P) w =
        .result (computeTopEhrhart (dual (d + 1)) (T.triangulate d) fuel rounds garbage dir o cones w) := by
  obtain ⟨l, e, hl⟩ := fileRows_full hT P h hs h0 hf hi
  rw [← hl] at hb hi ⊢
  have h2 := two_vertices (hT.vertices (d + 1) (pairs l)) hb hi
  obtain ⟨cones, e1, -, e3, e4⟩ := CddV.c88_cones (Nat.succ_pos d) (hT.vertices (d + 1) (pairs l)) hb h2
  refine ⟨cones, fun C hC => ?_, fun Ss hS => ?_, fun dual fuel rounds garbage dir o hermite w => ?_⟩
  · obtain ⟨-, -, g, f1, f2, f3⟩ := e4 C hC
    refine ⟨f1, f2, f3, spans_rays (pairs l) hi C.vertex C.rays g, fun y h1 h2 => ?_⟩
    rw [g] at h1 h2
    refine CddV.lin_tangent ?_ ⟨h1, h2⟩
    rw [← e3.mem]
    exact ⟨C.vertex, List.mem_map_of_mem hC, rfl⟩
  · rw [polyhedron_eq]
    exact represent _ _ cones Ss e3 (fun C hC => (e4 C hC).2.2.1) hS
  · unfold topFile
    rw [e hermite]
    change topRows T dual fuel rounds garbage dir o w (d + 1) l = _
    unfold topRows
    change (match (CddV.computeVertexCones (T.vertices (d + 1) (pairs l)).1 (T.vertices (d + 1) (pairs l)).2 : CddV.Outcome (d + 1)) with
      | .done (some k) => TopEnding.ended (.number k)
      | .done none => .ended .noNumber
      | .stop => .ended .stop
      | .undefined => .ended .undefined
      | .cones cones => .result (computeTopEhrhart (dual (d + 1)) (T.triangulate d) fuel rounds garbage dir o cones w)) = _
    rw [e1]

/-- A weight that is loaded and turned into powers of linear forms with sum `f`. -/
def WeightOk (n : ℕ) (w : WeightFile) (f : (Fin n → ℝ) → ℝ) : Prop :=
  ∃ (W : Weight) (lf : Verif.Trie.Sum ℚ) (out : List (Term ℚ)) (N : ℕ), (∀ garbage, w.load garbage = some W) ∧ W.fits n = true ∧
    (∀ fuel rounds, N ≤ fuel → N ≤ rounds → weightForms fuel rounds n W = some lf ∧ drain fuel rounds (begin' lf.trie n) = some out) ∧
    (∀ t ∈ out, 0 ≤ t.degree ∧ t.exps.length = n) ∧ ∀ x, polyAt (formsPoly n out) x = f x

theorem stands_ne {cones : List (GCone n)} {Ss : List (List (GCone n))} (h : List.Forall₂ Stands cones Ss) : ∀ S ∈ Ss, S ≠ [] := by
  induction h with
  | nil => simp
  | cons h1 _ ih =>
    intro S hS
    rcases List.mem_cons.1 hS with rfl | hS
    · exact h1.1
    · exact ih S hS

theorem top_describes {T : Tools} (hT : T.Ok) (dual : ∀ d, GCone d → Except Fail (GCone d)) (hdu : ∀ d, Vrep.DualOk (dual d)) (hn : 0 < n) (P : Empty.Problem n) (h : P.Ok) (hs : Small P)
    (h0 : P.rows ≠ []) (hf : P.nonnegFirst = false) (hb : Bornology.IsBounded P.Solutions) (hi : (interior P.Solutions).Nonempty) (w : WeightFile) (f : (Fin n → ℝ) → ℝ) (hw : WeightOk n w f) :
    ∃ N, ∀ (dir : List Char) (o : Options) (garbage : ℕ → ℤ) (fuel rounds hermite : ℕ) (s : List Char), N ≤ fuel → N ≤ rounds →
      topFile T dual fuel rounds garbage dir o hermite (text P) w = .result (.written s) → Describes s o P.Solutions f := by
  obtain ⟨d, rfl⟩ := Nat.exists_eq_succ_of_ne_zero hn.ne'
  obtain ⟨cones, c1, c2, c3⟩ := top_cones hT P h hs h0 hf hb hi
  obtain ⟨W, lf, out, N, w1, w2, w3, w4, w5⟩ := hw
  refine ⟨N, fun dir o garbage fuel rounds hermite s hF hR hw => ?_⟩
  rw [c3] at hw
  unfold computeTopEhrhart computeTop at hw
  obtain ⟨a1, a2⟩ := w3 fuel rounds hF hR
  by_cases hbad : o.coefficients ≠ -1 ∧ o.coefficients ≤ 0
  · rw [if_pos hbad] at hw
    cases hw
  · rw [if_neg hbad, w1] at hw
    dsimp only at hw
    rw [if_neg hbad, w2, a1] at hw
    dsimp only at hw
    rw [if_neg (by simp)] at hw
    cases hL : listedCones (dual (d + 1)) (T.triangulate d) 0 cones with
    | error e => rw [hL] at hw; cases hw
    | ok Ss =>
      rw [hL] at hw
      dsimp only at hw
      rw [a2] at hw
      cases hw
      have hst := listedCones_stands (dual (d + 1)) (hdu _) (T.triangulate d) (hT.triangulate d) cones 0 Ss c1 hL
      refine ⟨_, _, script_says dir o ?_ Ss (stands_ne hst) out w4, c2 Ss hst, fun x => (formsAt_formOf out x).trans (w5 x)⟩
      by_contra hno
      push Not at hno
      exact hbad ⟨hno.1, hno.2⟩

/-! ## The weights -/

theorem weight_forms (hn : 0 < n) (xs : List (Term ℚ)) (hne : ∃ x ∈ xs, x.coef ≠ 0) (hx : ∀ x ∈ xs, 0 ≤ x.degree ∧ x.exps.length = n) :
    ∃ (lf : Verif.Trie.Sum ℚ) (out : List (Term ℚ)) (N : ℕ), insertAll (emptySum ℚ n) xs = some lf ∧ lf.varCount = n ∧
      (∀ fuel rounds, N ≤ fuel → N ≤ rounds → drain fuel rounds (begin' lf.trie n) = some out) ∧ (∀ t ∈ out, 0 ≤ t.degree ∧ t.exps.length = n) ∧ formsPoly n out = formsPoly n xs := by
  obtain ⟨s, out, N, e1, e2, e3, e4, e5, e6⟩ := Trie.insertAll_drain n hn xs (fun x h => (hx x h).2) hne
  refine ⟨s, out, N, e1, e2.vars, e3, fun t ht => ⟨?_, (e4 t ht).2⟩, Trie.formsPoly_congr n _ _ e5⟩
  obtain ⟨x, hx1, hx2⟩ := Trie.delivered_from xs out (fun t ht => (e4 t ht).1) e5 e6 t ht
  have := congrArg Prod.fst hx2
  simp only [Term.key] at this
  rw [← this]
  exact (hx x hx1).1

theorem weight_linear_forms (hn : 0 < n) (xs : List (Term ℚ)) (hne : ∃ x ∈ xs, x.coef ≠ 0) (hx : ∀ x ∈ xs, 0 ≤ x.degree ∧ x.exps.length = n) :
    WeightOk n (.linearForms (Whole.formsText xs)) (powersAt xs) := by
  have hR := formsIn_rescale xs hne hx
  obtain ⟨lf, out, N, e1, e2, e3, e4, e5⟩ := weight_forms hn (xs.map rescale) hR.1 hR.2
  refine ⟨.forms lf, lf, out, N, fun garbage => ?_, by simp [Weight.fits, e2], fun fuel rounds a b => ⟨rfl, e3 fuel rounds a b⟩, e4, fun x => ?_⟩
  · change (loadLinForms (firstLine (Whole.formsText xs))).map Weight.forms = _
    rw [load_forms hn xs (by rintro rfl; simp at hne) fun t ht => (hx t ht).2, e1]
    rfl
  · rw [e5, polyAt_rescaled]

theorem weight_one (hn : 0 < n) : WeightOk n .nothing fun _ => 1 := by
  obtain ⟨lf, out, N, e1, -, e3, e4, e5⟩ := weight_forms hn [(⟨1, List.replicate n 0, 0⟩ : Term ℚ)] (by simp) (by simp)
  refine ⟨.one, lf, out, N, fun garbage => rfl, rfl, fun fuel rounds a b => ⟨e1, e3 fuel rounds a b⟩, e4, fun x => ?_⟩
  rw [e5, polyAt_formsPoly]
  simp [polyAt_linFormPoly]

theorem weight_monomials (hn : 0 < n) (xs : List (Term ℚ)) (hx : PolyIn n xs) : WeightOk n (.monomials (monomialsText xs)) (monomialsAt xs) := by
  have hm : ∀ x ∈ xs, x.exps.length = n ∧ ∀ e ∈ x.exps, 0 ≤ e := fun x h => (hx.mono x h).2.2
  obtain ⟨s, lf, out, N, e1, e2, e3, e4, -, -⟩ := Trie.c24_polynomial n hn xs hm
    (monoPoly_ne_zero n xs hx.ne (fun x h => ⟨(hx.mono x h).1, (hx.mono x h).2.2⟩) hx.nodup)
  have hv : s.varCount = n := by
    obtain ⟨s', e', o⟩ := Trie.insertAll_ok n hn xs fun x h => (hm x h).1
    rw [e1] at e'
    cases e'
    exact o.vars
  refine ⟨.polynomial s, lf, out, N, fun garbage => ?_, by simp [Weight.fits, hv], fun fuel rounds a b => e2 fuel rounds a b, fun t ht => ⟨?_, (e4 t ht).2.1⟩, fun x => ?_⟩
  · change (loadMonomials garbage (firstLine (monomialsText xs))).map Weight.polynomial = _
    rw [load_monomials hn xs hx garbage, e1]
    rfl
  · obtain ⟨y, hy, e⟩ := (e4 t ht).2.2
    rw [e]
    exact List.sum_nonneg (hm y hy).2
  · rw [e3, polyAt_mono]
    rfl

/-! ## C95 -/

/-- **C95: the script for counting.** For every file that describes a polytope with interior points, every option and both dualizations, whatever the triangulations are: the script written
describes the polytope with the weight one. -/
theorem c95_unweighted {T : Tools} (hT : T.Ok) (dual : ∀ d, GCone d → Except Fail (GCone d)) (hdu : ∀ d, Vrep.DualOk (dual d)) (hn : 0 < n) (P : Empty.Problem n) (h : P.Ok) (hs : Small P)
    (h0 : P.rows ≠ []) (hf : P.nonnegFirst = false) (hb : Bornology.IsBounded P.Solutions) (hi : (interior P.Solutions).Nonempty) :
    ∃ N, ∀ (dir : List Char) (o : Options) (garbage : ℕ → ℤ) (fuel rounds hermite : ℕ) (s : List Char), N ≤ fuel → N ≤ rounds →
      topFile T dual fuel rounds garbage dir o hermite (text P) .nothing = .result (.written s) → Describes s o P.Solutions fun _ => 1 :=
  top_describes hT dual hdu hn P h hs h0 hf hb hi _ _ (weight_one hn)

/-- **C95: the script with a polynomial weight.** -/
theorem c95_monomials {T : Tools} (hT : T.Ok) (dual : ∀ d, GCone d → Except Fail (GCone d)) (hdu : ∀ d, Vrep.DualOk (dual d)) (hn : 0 < n) (P : Empty.Problem n) (h : P.Ok) (hs : Small P)
    (h0 : P.rows ≠ []) (hf : P.nonnegFirst = false) (hb : Bornology.IsBounded P.Solutions) (hi : (interior P.Solutions).Nonempty) (xs : List (Term ℚ)) (hx : PolyIn n xs) :
    ∃ N, ∀ (dir : List Char) (o : Options) (garbage : ℕ → ℤ) (fuel rounds hermite : ℕ) (s : List Char), N ≤ fuel → N ≤ rounds →
      topFile T dual fuel rounds garbage dir o hermite (text P) (.monomials (monomialsText xs)) = .result (.written s) → Describes s o P.Solutions (monomialsAt xs) :=
  top_describes hT dual hdu hn P h hs h0 hf hb hi _ _ (weight_monomials hn xs hx)

/-- **C95: the script with powers of linear forms as weight.** -/
theorem c95_linear_forms {T : Tools} (hT : T.Ok) (dual : ∀ d, GCone d → Except Fail (GCone d)) (hdu : ∀ d, Vrep.DualOk (dual d)) (hn : 0 < n) (P : Empty.Problem n) (h : P.Ok) (hs : Small P)
    (h0 : P.rows ≠ []) (hf : P.nonnegFirst = false) (hb : Bornology.IsBounded P.Solutions) (hi : (interior P.Solutions).Nonempty) (xs : List (Term ℚ))
    (hne : ∃ x ∈ xs, x.coef ≠ 0) (hx : ∀ x ∈ xs, 0 ≤ x.degree ∧ x.exps.length = n) :
    ∃ N, ∀ (dir : List Char) (o : Options) (garbage : ℕ → ℤ) (fuel rounds hermite : ℕ) (s : List Char), N ≤ fuel → N ≤ rounds →
      topFile T dual fuel rounds garbage dir o hermite (text P) (.linearForms (Whole.formsText xs)) = .result (.written s) → Describes s o P.Solutions (powersAt xs) :=
  top_describes hT dual hdu hn P h hs h0 hf hb hi _ _ (weight_linear_forms hn xs hne hx)

/-- **C95: what is rejected.** A number of coefficients that is neither `-1` nor positive is always rejected, and nothing else is rejected as a bad option. -/
theorem c95_bad_option (dual : GCone n → Except Fail (GCone n)) (tri : ℕ → List (Vec n) → ℕ → Except Fail (List (List (Vec n)) × ℕ)) (fuel rounds : ℕ) (garbage : ℕ → ℤ)
    (dir : List Char) (o : Options) (cones : List (GCone n)) (w : WeightFile) :
    computeTopEhrhart dual tri fuel rounds garbage dir o cones w = .badOption ↔ o.coefficients ≠ -1 ∧ o.coefficients ≤ 0 := by
  unfold computeTopEhrhart computeTop
  by_cases hbad : o.coefficients ≠ -1 ∧ o.coefficients ≤ 0
  · simp [hbad]
  · rw [if_neg hbad]
    simp only [hbad, iff_false]
    split
    · simp
    · rw [if_neg not_false]
      split
      · simp
      · split
        · simp
        · split
          · simp
          · split <;> simp

theorem dualizeBack_total (dual : GCone n → Except Fail (GCone n)) (hdu : Vrep.DualOk dual) (hsq : DualSquare dual) (v : Fin n → ℚ) : ∀ ps : List (List (Vec n)),
    (∀ p ∈ ps, Regular.Spans p ∧ p.length = n) → ∃ S, dualizeBack dual v ps = .ok S ∧ ∀ c ∈ S, c.rays.length = n
  | [], _ => ⟨[], rfl, by simp⟩
  | p :: ps, h => by
    obtain ⟨S, hS, hl⟩ := dualizeBack_total dual hdu hsq v ps fun q hq => h q (by simp [hq])
    obtain ⟨D, hD, -⟩ := hdu.1 (⟨v, p, [], [], []⟩ : GCone n) rfl rfl rfl (h p (by simp)).1
    refine ⟨D :: S, ?_, ?_⟩
    · unfold dualizeBack
      rw [hD]
      dsimp only
      rw [hS]
    · intro c hc
      rcases List.mem_cons.1 hc with rfl | hc
      · exact hsq _ _ rfl (h p (by simp)).2 hD
      · exact hl c hc

theorem listedCones_total {T : Tools} (hT : T.Ok) (htri : TriangulationTotal T) (dual : GCone (d + 1) → Except Fail (GCone (d + 1))) (hdu : Vrep.DualOk dual) (hsq : DualSquare dual) :
    ∀ (cones : List (GCone (d + 1))) (i : ℕ),
      (∀ C ∈ cones, C.facets = [] ∧ C.subspace = [] ∧ C.equalities = [] ∧ Regular.Spans C.rays ∧ ∀ y : Fin (d + 1) → ℝ, y ∈ Regular.generated C.rays → -y ∈ Regular.generated C.rays → y = 0) →
      ∃ Ss, listedCones dual (T.triangulate d) i cones = .ok Ss
  | [], _, _ => ⟨[], rfl⟩
  | C :: cones, i, h => by
    obtain ⟨Ss, hS⟩ := listedCones_total hT htri dual hdu hsq cones (i + 1) fun C' hC' => h C' (by simp [hC'])
    have key : ∃ S, simplicialCones dual (T.triangulate d) i C = .ok S ∧ ∀ c ∈ S, c.rays.length = d + 1 := by
      obtain ⟨hf, hs, he, hsp, hpt⟩ := h C (by simp)
      unfold simplicialCones
      by_cases hlen : C.rays.length ≠ d + 1
      · rw [if_pos hlen]
        obtain ⟨D, hD, hv, hDf, hr, -, -⟩ := hdu.1 C hf hs he hsp
        have hCD : ∀ x, x ∈ Regular.generated C.rays ↔ ∀ f ∈ D.rays, dot f x ≤ 0 := fun x => by rw [bipolar hr]; simp
        have hsD : Regular.Spans D.rays := by
          intro y hy
          refine hpt y ((hCD y).2 fun f hf => (hy f hf).le) ((hCD _).2 fun f hf => by rw [dot_neg', hy f hf, neg_zero])
        obtain ⟨parts, k, ht, hp⟩ := htri d i D.rays hsD 0
        have hsub := hT.triangulate d i _ _ _ _ hsD ht
        have hne : D.facets ≠ [] := by
          rw [hDf]
          intro h0
          have := hsp (fun _ => 1) (by simp [h0])
          simpa using congrFun this 0
        rw [hD]
        dsimp only
        rw [ht]
        dsimp only
        rw [hdu.2 D hne]
        dsimp only
        refine dualizeBack_total dual hdu hsq D.vertex _ fun p hp' => ?_
        rw [Regular.collect_eq, List.mem_reverse] at hp'
        exact ⟨hsub.spans p hp', hp p hp'⟩
      · rw [if_neg hlen]
        push Not at hlen
        exact ⟨[C], rfl, by simpa using hlen⟩
    obtain ⟨S, k1, k2⟩ := key
    refine ⟨S :: Ss, ?_⟩
    unfold listedCones
    rw [k1]
    dsimp only
    rw [if_pos k2, hS]

/-- **C95: a script is written.** If the triangulations go through, a script is written for every allowed option and each of the weights. -/
theorem c95_total {T : Tools} (hT : T.Ok) (htri : TriangulationTotal T) (dual : ∀ d, GCone d → Except Fail (GCone d)) (hdu : ∀ d, Vrep.DualOk (dual d)) (hsq : ∀ d, DualSquare (dual d))
    (hn : 0 < n) (P : Empty.Problem n) (h : P.Ok) (hs : Small P)
    (h0 : P.rows ≠ []) (hf : P.nonnegFirst = false) (hb : Bornology.IsBounded P.Solutions) (hi : (interior P.Solutions).Nonempty) (w : WeightFile)
    (hw : w = .nothing ∨ (∃ xs, PolyIn n xs ∧ w = .monomials (monomialsText xs)) ∨
      ∃ xs : List (Term ℚ), (∃ x ∈ xs, x.coef ≠ 0) ∧ (∀ x ∈ xs, 0 ≤ x.degree ∧ x.exps.length = n) ∧ w = .linearForms (Whole.formsText xs)) :
    ∃ N, ∀ (dir : List Char) (o : Options) (garbage : ℕ → ℤ) (fuel rounds hermite : ℕ), o.coefficients = -1 ∨ 0 < o.coefficients → N ≤ fuel → N ≤ rounds →
      ∃ s, topFile T dual fuel rounds garbage dir o hermite (text P) w = .result (.written s) := by
  have hW : ∃ f, WeightOk n w f := by
    rcases hw with rfl | ⟨xs, hx, rfl⟩ | ⟨xs, h1, h2, rfl⟩
    · exact ⟨_, weight_one hn⟩
    · exact ⟨_, weight_monomials hn xs hx⟩
    · exact ⟨_, weight_linear_forms hn xs h1 h2⟩
  obtain ⟨f, W, lf, out, N, w1, w2, w3, -, -⟩ := hW
  obtain ⟨d, rfl⟩ := Nat.exists_eq_succ_of_ne_zero hn.ne'
  obtain ⟨cones, c1, -, c3⟩ := top_cones hT P h hs h0 hf hb hi
  obtain ⟨Ss, hS⟩ := listedCones_total hT htri (dual (d + 1)) (hdu _) (hsq _) cones 0 c1
  refine ⟨N, fun dir o garbage fuel rounds hermite ho hF hR => ⟨script dir o (d + 1) Ss out, ?_⟩⟩
  obtain ⟨a1, a2⟩ := w3 fuel rounds hF hR
  have hbad : ¬(o.coefficients ≠ -1 ∧ o.coefficients ≤ 0) := by omega
  rw [c3]
  unfold computeTopEhrhart computeTop
  rw [if_neg hbad, w1]
  dsimp only
  rw [if_neg hbad, w2, a1]
  dsimp only
  rw [if_neg (by simp), hS]
  dsimp only
  rw [a2]

/-- Both dualizations are as required. -/
theorem c95_dualizations (alg : Rays) (ha : RaysOk alg) (cdd : ∀ n, Vrep.ConeCdd n) (hc : ∀ n, Vrep.ConeCddOk (cdd n)) :
    (∀ d, Vrep.DualOk (n := d) (Ti2.dualizeCone alg) ∧ DualSquare (n := d) (Ti2.dualizeCone alg)) ∧
    ∀ d, Vrep.DualOk (Vrep.dualizeConeCdd (cdd d)) ∧ DualSquare (Vrep.dualizeConeCdd (cdd d)) :=
  ⟨fun _ => ⟨Vrep.dualOk_4ti2 alg ha, dualSquare_4ti2 alg⟩, fun d => ⟨Vrep.c90_dualize (cdd d) (hc d), dualSquare_cdd (cdd d)⟩⟩

end Verif.Whole
