import Verif.Options.Stage

/-!
# C96: the theorems
-/

namespace Verif.Options

open Verif.Barvinok Verif.Barvinok.Spec Verif.Brion Verif.Ti2 Verif.Regular Verif.Irrational Verif.Preprocess Verif.Whole
open Verif.ExpSubst (Fail GenericFor ShortVectors)

variable {n d : ℕ}

/-! ## Contracts -/

/-- **Contract of the linear programs and estimates**: optimal solutions; a depth of at least 1. -/
structure Movers.Ok (M : Movers) : Prop where
  lp : ∀ d, SolverOk (M.lp d)
  general : ∀ d v R F, 1 ≤ M.general d v R F

/-- **Contract of the estimates**, second part: the depth is as large as the formula in the program says, in exact arithmetic. -/
structure Movers.Estimates (M : Movers) : Prop where
  single : ∀ d C, Wf C → EstimateOk (M.single d) C
  general : ∀ d v R F, EstimateGeneralOk (M.general d v R F) R

/-! ## The number -/

/-- The integer points in coordinates. -/
theorem points_eq {P : Empty.Problem n} {l : List (Row d)} {p : Fin n → ℤ} {B : Fin d → Fin n → ℤ} (hco : Coordinates P.Solutions l p B) :
    (feasible l).ncard = (integerPoints P).ncard := by
  have h1 := hco.ncard 1 le_rfl
  have e1 : l.map (dilateRow 1) = l := by
    conv_rhs => rw [← List.map_id l]
    refine List.map_congr_left fun r _ => ?_
    unfold dilateRow
    simp
  have e2 : {w : Fin n → ℤ | (fun k => (w k : ℝ) / ((1 : ℕ) : ℝ)) ∈ P.Solutions} = integerPoints P := by
    ext w
    rw [integerPoints_iff]
    simp
  rw [e1, e2] at h1
  exact h1

theorem countRows_number {T : Tools} (hT : T.Ok) (ha : RaysOk T.rays) (hu : ∀ d t, Uses (T.triangulate d t)) {M : Movers} (hM : M.Ok) (o : Choice) {L : Limits}
    (hdet : L.maxDet ≠ 0) (hmax : L.maxDet ≤ Piped.intMax) (hfuel : L.maxDet < L.fuel) (rows : List (Row (d + 1))) (hb : Bornology.IsBounded (Polyhedron (pairs rows)))
    (hst : ∃ y : Fin (d + 1) → ℝ, ∀ r ∈ rows, 0 < (r.b : ℝ) + dot r.a y) {r : ℤ} (hr : countRows T M o L (d + 1) rows = .number r) :
    r = (feasible rows).ncard := by
  obtain ⟨y0, hy0⟩ := id hst
  have hne : (Polyhedron (pairs rows)).Nonempty := ⟨y0, interior_subset (interior_strict rows y0 hy0)⟩
  obtain ⟨S, hS, hmem, hlen⟩ := feasible_list rows hb
  have hpts : LatticePoints (normals (pairs rows)) (sides (pairs rows)) S := ⟨hS, fun z => by rw [hmem, lattice_iff]⟩
  change countCones T M o L d rows = _ at hr
  unfold countCones at hr
  rcases stage_cases hT ha o.tool rows hb hne with e | ⟨cones, e, hp⟩
  · rw [e] at hr
    exact (Ending.number.inj hr).symm
  rw [e] at hr
  dsimp only at hr
  obtain ⟨tool, v⟩ := o
  dsimp only at hr
  obtain ⟨cs, hcs, hvl, hnr⟩ := hp.dual
  rw [← hlen]
  cases v with
  | dual =>
    unfold prepare at hr
    simp only [hcs, Bool.false_eq_true, if_false] at hr
    generalize ht : triangulateAndCount _ _ _ _ _ _ _ _ _ _ = res at hr
    match res, ht, hr with
    | .ok k, ht, hr =>
      obtain rfl := Ending.number.inj hr
      exact c75_count (T.ntl d) (hT.ntl d) T.xgcd _ L.maxDet hdet hmax L.fuel hfuel _ _ S hpts _ hvl hnr L.tries _ (hT.triangulate d) _ _ ht
  | irrationalPrimal =>
    unfold prepare at hr
    simp only [hcs, Bool.false_eq_true, if_false] at hr
    generalize ht : triangulateAndCount _ _ _ _ _ _ _ _ _ _ = res at hr
    match res, ht, hr with
    | .ok k, ht, hr =>
      obtain rfl := Ending.number.inj hr
      exact count_irrationalPrimal (T.ntl d) (hT.ntl d) T.xgcd _ L.maxDet hdet hmax L.fuel hfuel _ _ S hpts _ hvl hnr L.tries _ (hT.triangulate d) _ _ ht
  | irrationalAllPrimal =>
    obtain ⟨out, ho, hvo, hat⟩ := hp.primal hst
    obtain ⟨moved, hmv, hcount⟩ := count_irrationalAllPrimal (T.ntl d) (hT.ntl d) T.xgcd (irrVertex (M.single d)) (M.lp d) (hM.lp d) (M.general d) (hM.general d) L.maxDet hdet hmax
      L.fuel hfuel _ _ S hpts out hvo hat
    unfold prepare at hr
    simp only [ho, hmv, Bool.false_eq_true, if_false] at hr
    generalize ht : triangulateAndCount _ _ _ _ _ _ _ _ _ _ = res at hr
    match res, ht, hr with
    | .ok k, ht, hr =>
      obtain rfl := Ending.number.inj hr
      exact hcount _ _ (hT.triangulate d) (hu d) _ _ ht

/-- **C96: the number reported for a file is the number of integer points, with every combination of these options.**  For every file in LattE format that describes a polytope or an empty set
by inequalities, equations and nonnegative variables, run with `--exp`, vertex cones from cdd or 4ti2, and the dual, irrational primal or irrational all-primal decomposition: whatever the
random numbers and triangulations are, if the program reports a number, it is the number of integer points that meet all conditions of the file. -/
theorem c96_count {T : Tools} (hT : T.Ok) (hst : CanonicalizeStrict T.canonicalize) (ha : RaysOk T.rays) (hu : ∀ d t, Uses (T.triangulate d t)) {M : Movers} (hM : M.Ok)
    (o : Choice) {L : Limits} (hdet : L.maxDet ≠ 0) (hmax : L.maxDet ≤ Piped.intMax) (hfuel : L.maxDet < L.fuel) (hn : 0 < n)
    (P : Empty.Problem n) (h : P.Ok) (hs : Small P) (h0 : P.rows ≠ []) (hf : P.nonnegFirst = false) (hd : P.Directions = {0})
    {r : ℤ} (hr : countFile T M o L (text P) = .number r) : r = (integerPoints P).ncard := by
  have hright := (c92_rows hT hn P h hs h0 hf hd).1 L.hermite
  unfold countFile at hr
  cases e : fileRows T L.hermite (text P) with
  | ended en =>
    rw [e] at hr hright
    rcases hright with hright | hright
    · have h1 := hright.1
      rw [h1] at hr
      exact (Ending.number.inj hr).symm
    · cases hright
      cases hr
  | rows d l =>
    rw [e] at hr hright
    rcases hright with ⟨hd0, hb, p, B, hco⟩ | hright
    · obtain ⟨d, rfl⟩ : ∃ d', d = d' + 1 := ⟨d - 1, by omega⟩
      have hne : P.Solutions.Nonempty := by
        by_contra hne
        have h2 := (Empty.c86_decides T.lp hT.lp P h (Or.inl h0) (by rw [hf]; simp)).2 (Set.not_nonempty_iff_eq_empty.1 hne) hd
        unfold fileRows at e
        rw [tokens_text P hf, h2] at e
        cases e
      have hstrict := fileRows_strict hT hst P h hs h0 hf hne L.hermite e
      rw [countRows_number hT ha hu hM o hdet hmax hfuel l hb hstrict hr]
      exact congrArg Nat.cast (points_eq hco)
    · cases hright

/-! ## An answer is found -/

/-- The random vectors have no influence on the inequalities. -/
theorem fileRows_guess (T : Tools) (guess : ∀ d, ℕ → Vec (d + 1)) (hermite : ℕ) (s : List Char) : fileRows { T with guess := guess } hermite s = fileRows T hermite s := by
  have e2 : ∀ M, matrixRows { T with guess := guess } hermite M = matrixRows T hermite M := by
    intro M
    unfold matrixRows
    dsimp only
    generalize splitRows _ _ _ _ = w
    match w with
    | none => rfl
    | some (E, I) => rfl
  unfold fileRows
  dsimp only
  generalize Empty.checkEmpty T.lp (tokens s) = o
  match o with
  | none => rfl
  | some .exit1 => rfl
  | some .undefined => rfl
  | some (.thrown text) => rfl
  | some .done =>
    dsimp only
    generalize Files.readLatteStyleMatrix s false false false = w
    match w with
    | .error => rfl
    | .outOfBounds => rfl
    | .ok M => exact e2 M

/-- The number for a list of inequalities is found as soon as the random vector of round `t` is generic. -/
theorem countRows_found {T : Tools} (hT : T.Ok) (ha : RaysOk T.rays) (hu : ∀ d t, Uses (T.triangulate d t)) (hsr : ∀ d, (T.ntl d).ShortestRow)
    (htri : TriangulationTotal T) {M : Movers} (hM : M.Ok) (hE : M.Estimates) (o : Choice) (maxDet : ℤ) (fuel : ℕ)
    (h1 : 1 ≤ maxDet) (hmax : maxDet ≤ Piped.intMax) (hfuel : maxDet < fuel) (rows : List (Row (d + 1))) (hb : Bornology.IsBounded (Polyhedron (pairs rows)))
    (hst : ∃ y : Fin (d + 1) → ℝ, ∀ r ∈ rows, 0 < (r.b : ℝ) + dot r.a y) (t : ℕ) :
    ∃ D : List (Cone (d + 1)), (∃ lam, GenericFor lam D) ∧ ∀ (guess : ∀ d, ℕ → Vec (d + 1)) (hermite tries : ℕ), GenericFor (guess d t) D → t < tries →
      countRows { T with guess := guess } M o ⟨maxDet, fuel, hermite, tries⟩ (d + 1) rows = .number (feasible rows).ncard := by
  obtain ⟨y0, hy0⟩ := id hst
  have hne : (Polyhedron (pairs rows)).Nonempty := ⟨y0, interior_subset (interior_strict rows y0 hy0)⟩
  obtain ⟨S, hS, hmem, hlen⟩ := feasible_list rows hb
  have hpts : LatticePoints (normals (pairs rows)) (sides (pairs rows)) S := ⟨hS, fun z => by rw [hmem, lattice_iff]⟩
  have hstage : ∀ guess, vertexStage { T with guess := guess } o.tool d rows = vertexStage T o.tool d rows := fun _ => rfl
  have hprep : ∀ guess v cones, prepare { T with guess := guess } M v d (pairs rows) cones = prepare T M v d (pairs rows) cones := fun _ _ _ => rfl
  rcases stage_cases hT ha o.tool rows hb hne with e | ⟨cones, e, hp⟩
  · refine ⟨[], ⟨0, fun C hC => by cases hC⟩, fun guess hermite tries _ _ => ?_⟩
    change countCones _ M o _ d rows = _
    unfold countCones
    rw [hstage, e]
  obtain ⟨cs, hcs, hvl, hnr⟩ := hp.dual
  have hspan : ∀ c ∈ cs.map fun C => (C.vertex, C.rays), Spans c.2 := by
    intro c hc
    refine spans_of_vertex (normals (pairs rows)) (sides (pairs rows)) c.1 ?_ c.2 (hnr c hc)
    exact (hvl.mem _).1 ⟨c.1, List.mem_map_of_mem hc, rfl⟩
  have key : ∃ prep, prepare T M o.variant d (pairs rows) cones = .ok prep ∧ ∃ D : List (Cone (d + 1)), (∃ lam, GenericFor lam D) ∧
      ∀ (guesses : ℕ → Vec (d + 1)), GenericFor (guesses t) D → ∀ tries, t < tries →
        triangulateAndCount (T.ntl d) T.xgcd o.variant (irrVertex (M.single d)) maxDet fuel prep tries (T.triangulate d) guesses = .ok (S.length : ℤ) := by
    obtain ⟨tool, v⟩ := o
    dsimp only
    cases v with
    | dual =>
      refine ⟨cs.map fun C => (C.vertex, C.rays), by unfold prepare; simp only [hcs], ?_⟩
      obtain ⟨D, hD, h⟩ := c75_count_total (T.ntl d) (hT.ntl d) (shortVectors_shortestRow _ (hT.ntl d) (hsr d)) T.xgcd (irrVertex (M.single d)) maxDet h1 hmax fuel hfuel
        _ _ S hpts _ hvl hnr (T.triangulate d) (hT.triangulate d) t (fun s _ c hc k => htri d s _ (hspan c hc) k)
      exact ⟨D t, hD t le_rfl, h⟩
    | irrationalPrimal =>
      refine ⟨cs.map fun C => (C.vertex, C.rays), by unfold prepare; simp only [hcs], ?_⟩
      exact total_irrationalPrimal (T.ntl d) (hT.ntl d) (hsr d) T.xgcd (M.single d) (hE.single d) maxDet h1 hmax fuel hfuel
        _ _ S hpts _ hvl hnr (T.triangulate d) (hT.triangulate d) t (fun s _ c hc k => htri d s _ (hspan c hc) k)
    | irrationalAllPrimal =>
      obtain ⟨out, ho, hvo, hat⟩ := hp.primal hst
      obtain ⟨moved, hmv, hD⟩ := total_irrationalAllPrimal (T.ntl d) (hT.ntl d) (hsr d) T.xgcd (irrVertex (M.single d)) (M.lp d) (hM.lp d) (M.general d) (hE.general d) maxDet h1 hmax
        fuel hfuel _ _ S hpts out hvo hat (T.triangulate d) (hT.triangulate d) (hu d) t (fun s _ l hl k => htri d s l hl k)
      exact ⟨moved, by unfold prepare; simp only [ho, hmv], hD⟩
  obtain ⟨prep, hprep', D, hD, hall⟩ := key
  refine ⟨D, hD, fun guess hermite tries hg ht => ?_⟩
  change countCones _ M o _ d rows = _
  unfold countCones
  rw [hstage, e]
  dsimp only
  rw [hprep, hprep']
  simp only [Bool.false_eq_true, if_false]
  rw [hall (guess d) hg tries ht, hlen]

/-- **C96: an answer is found, with every combination of these options.** For every such file, in the round `t`: there are finitely many cones such that the program reports the number of integer
points as soon as the random vector of this round is generic for them (such vectors exist), the loop of the elimination may run long enough, and the round is reached. -/
theorem c96_total {T : Tools} (hT : T.Ok) (hst : CanonicalizeStrict T.canonicalize) (ha : RaysOk T.rays) (hu : ∀ d t, Uses (T.triangulate d t))
    (hsr : ∀ d, (T.ntl d).ShortestRow) (htri : TriangulationTotal T) {M : Movers} (hM : M.Ok) (hE : M.Estimates)
    (o : Choice) (maxDet : ℤ) (fuel : ℕ) (h1 : 1 ≤ maxDet) (hmax : maxDet ≤ Piped.intMax) (hfuel : maxDet < fuel) (hn : 0 < n)
    (P : Empty.Problem n) (h : P.Ok) (hs : Small P) (h0 : P.rows ≠ []) (hf : P.nonnegFirst = false) (hd : P.Directions = {0}) (t : ℕ) :
    ∃ (d N : ℕ) (D : List (Cone (d + 1))), (∃ lam, GenericFor lam D) ∧ ∀ (guess : ∀ d, ℕ → Vec (d + 1)) (hermite tries : ℕ), GenericFor (guess d t) D → t < tries →
      N ≤ hermite → countFile { T with guess := guess } M o ⟨maxDet, fuel, hermite, tries⟩ (text P) = .number (integerPoints P).ncard := by
  obtain ⟨N, st, hst', hN⟩ := (c92_rows hT hn P h hs h0 hf hd).2
  have hfile : ∀ guess hermite, fileRows { T with guess := guess } hermite (text P) = fileRows T hermite (text P) := fun guess hermite => fileRows_guess T guess hermite _
  cases st with
  | ended en =>
    refine ⟨0, N, [], ⟨0, fun C hC => by cases hC⟩, fun guess hermite tries _ _ hh => ?_⟩
    unfold countFile
    rw [hfile, hN hermite hh]
    exact hst'.1
  | rows d l =>
    obtain ⟨hd0, hb, p, B, hco⟩ := hst'
    obtain ⟨d, rfl⟩ : ∃ d', d = d' + 1 := ⟨d - 1, by omega⟩
    have e := hN N le_rfl
    have hne : P.Solutions.Nonempty := by
      by_contra hne
      have h2 := (Empty.c86_decides T.lp hT.lp P h (Or.inl h0) (by rw [hf]; simp)).2 (Set.not_nonempty_iff_eq_empty.1 hne) hd
      unfold fileRows at e
      rw [tokens_text P hf, h2] at e
      cases e
    have hstrict := fileRows_strict hT hst P h hs h0 hf hne N e
    obtain ⟨D, hD, hall⟩ := countRows_found hT ha hu hsr htri hM hE o maxDet fuel h1 hmax hfuel l hb hstrict t
    refine ⟨d, N, D, hD, fun guess hermite tries hg ht hh => ?_⟩
    unfold countFile
    rw [hfile, hN hermite hh]
    show countRows _ _ _ _ (d + 1) l = _
    rw [hall guess hermite tries hg ht]
    exact congrArg (fun k : ℕ => Ending.number k) (points_eq hco)

end Verif.Options
