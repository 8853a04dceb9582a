import Verif.Options.Unbounded
import Verif.Options.Solver
import Verif.Whole.Example

/-!
# C96: default options, contracts, and a file
-/

namespace Verif.Options

open Verif.Barvinok Verif.Barvinok.Spec Verif.Brion Verif.Ti2 Verif.Regular Verif.Irrational Verif.Preprocess Verif.Whole
open Verif.ExpSubst (Fail)

variable {n d : ℕ}

/-- With the default options this is the program of C91. -/
theorem countFile_default (T : Tools) (M : Movers) (hi : ∀ d, T.irr d = irrVertex (M.single d)) (L : Limits) (s : List Char) :
    countFile T M ⟨.cdd, .dual⟩ L s = Whole.countFile T L s := by
  have hrows : ∀ (d : ℕ) (l : List (Row d)), countRows T M ⟨.cdd, .dual⟩ L d l = Whole.countRows T L d l := by
    intro d l
    cases d with
    | zero => rfl
    | succ d =>
      change countCones T M ⟨.cdd, .dual⟩ L d l = (match CddV.countCdd (T.vertices (d + 1) (pairs l)).1 (T.vertices (d + 1) (pairs l)).2 T.rays (T.ntl d) T.xgcd (T.irr d) L.maxDet
        L.fuel (pairs l) L.tries (T.triangulate d) (T.guess d) with
        | .number k => Ending.number k | .noNumber => .noNumber | .stop => .stop | .failed e => .failed e | .undefined => .undefined)
      unfold countCones vertexStage prepare CddV.countCdd
      rw [hi d]
      dsimp only
      generalize (CddV.computeVertexCones (T.vertices (d + 1) (pairs l)).1 (T.vertices (d + 1) (pairs l)).2 : CddV.Outcome (d + 1)) = o
      match o with
      | .done (some k) => rfl
      | .done none => rfl
      | .stop => rfl
      | .undefined => rfl
      | .cones cones =>
        dsimp only
        generalize dualizeCones T.rays ((cones.map (tightFacets (pairs l))).map (tightFacets (pairs l))) = w
        match w with
        | .error e => rfl
        | .ok cs =>
          dsimp only
          rw [if_neg (by simp)]
          generalize triangulateAndCount (T.ntl d) T.xgcd .dual _ L.maxDet L.fuel _ L.tries (T.triangulate d) (T.guess d) = q
          match q with
          | .error e => rfl
          | .ok k => rfl
  unfold countFile fileRows Whole.countFile
  generalize Empty.checkEmpty T.lp (tokens s) = o
  match o with
  | none => rfl
  | some .exit1 => rfl
  | some .undefined => rfl
  | some (.thrown text) =>
    dsimp only
    generalize Files.scanInt text.toList = u
    match u with
    | some (k, _) => rfl
    | none => rfl
  | some .done =>
    dsimp only
    generalize Files.readLatteStyleMatrix s false false false = u
    match u with
    | .error => rfl
    | .outOfBounds => rfl
    | .ok A =>
      dsimp only
      unfold matrixRows Whole.countMatrix
      generalize splitRows _ _ _ _ = w
      match w with
      | none => rfl
      | some (E, I) =>
        dsimp only
        unfold projectRows Whole.projectAndCount
        by_cases hE : E = []
        · rw [if_pos hE, if_pos hE]; exact hrows _ _
        · rw [if_neg hE, if_neg hE]
          generalize preprocessProblem L.hermite _ I 0 1 = v
          match v with
          | .count k => rfl
          | .notBounded => rfl
          | .crash => rfl
          | .fuel => rfl
          | .reduced d out _ _ _ => exact hrows _ _

/-! ## The contracts can be met -/

theorem movers_satisfiable : ∃ M : Movers, M.Ok ∧ M.Estimates := by
  have hlp : ∀ d : ℕ, ∃ lp : Solver (d + 1), SolverOk lp := fun d => solverOk_satisfiable (d + 1)
  choose lp hlp using hlp
  have h1 : ∀ d : ℕ, ∃ depth : Cone (d + 1) → ℕ, ∀ C, EstimateOk depth C := fun d => estimate_satisfiable.1
  choose single h1 using h1
  have h2 : ∀ d : ℕ, ∃ depth : Brion.VertexCone (d + 1) → ℕ, ∀ C, EstimateGeneralOk (depth C) C.rays := fun d => estimate_satisfiable.2
  choose general h2 using h2
  refine ⟨⟨lp, single, fun d v R F => general d ⟨v, R, F, []⟩⟩, ⟨hlp, fun d v R F => ?_⟩, ⟨fun d C _ => h1 d C, fun d v R F => h2 d ⟨v, R, F, []⟩⟩⟩
  obtain ⟨t, e, -⟩ := h2 d ⟨v, R, F, []⟩
  show 1 ≤ general d ⟨v, R, F, []⟩
  omega

theorem contracts_satisfiable : ∃ T : Tools, T.Ok ∧ CanonicalizeStrict T.canonicalize ∧ RaysOk T.rays ∧ (∀ d t, Uses (T.triangulate d t)) ∧ (∀ d, (T.ntl d).ShortestRow) ∧
    TriangulationTotal T := by
  obtain ⟨T, hT, -, htri, hst, hu⟩ := tools_satisfiable_uses
  have hn : ∀ d : ℕ, ∃ N : Ntl (d + 1), N.Ok ∧ N.ShortestRow := fun d => shortestRow_satisfiable (d + 1)
  choose ntl hntl using hn
  obtain ⟨rays, hr⟩ := raysOk_satisfiable
  exact ⟨{ T with ntl := ntl, rays := rays }, ⟨hT.lp, hT.canonicalize, hT.vertices, fun d => (hntl d).1, hT.triangulate⟩, hst, hr, hu, fun d => (hntl d).2, htri⟩

/-! ## A file with 6 integer points -/

/-- Whatever tools, options and random numbers are used: a number reported for the file is 6. -/
example {T : Tools} (hT : T.Ok) (hst : CanonicalizeStrict T.canonicalize) (ha : RaysOk T.rays) (hu : ∀ d t, Uses (T.triangulate d t)) {M : Movers} (hM : M.Ok)
    (o : Choice) {L : Limits} (hdet : L.maxDet ≠ 0) (hmax : L.maxDet ≤ Piped.intMax) (hfuel : L.maxDet < L.fuel) {r : ℤ}
    (hr : countFile T M o L "2 4 \n2 -1 -1 -1 \n5 -1 0 0 \nlinearity 1 1 \nnonnegative 3 1 2 3 \n".toList = .number r) : r = 6 := by
  rw [← ex_text] at hr
  rw [c96_count hT hst ha hu hM o hdet hmax hfuel (by decide) exP ex_ok ex_small (by simp [exP]) rfl ex_directions hr, ex_points, Set.ncard_coe_finset]
  decide +kernel

/-- And for all options there are tools and random numbers with which it is reported. -/
example (o : Choice) : ∃ (T : Tools) (M : Movers) (L : Limits), T.Ok ∧ M.Ok ∧
    countFile T M o L "2 4 \n2 -1 -1 -1 \n5 -1 0 0 \nlinearity 1 1 \nnonnegative 3 1 2 3 \n".toList = .number 6 := by
  obtain ⟨T, hT, hst, ha, hu, hsr, htri⟩ := contracts_satisfiable
  obtain ⟨M, hM, hE⟩ := movers_satisfiable
  obtain ⟨d, N, D, ⟨lam, hl⟩, h⟩ := c96_total hT hst ha hu hsr htri hM hE o 1 2 le_rfl (by decide) (by decide) (by decide) exP ex_ok ex_small (by simp [exP]) rfl ex_directions 0
  refine ⟨{ T with guess := fun d' _ => if e : d' = d then e ▸ lam else 0 }, M, ⟨1, 2, N, 1⟩, ⟨hT.lp, hT.canonicalize, hT.vertices, hT.ntl, hT.triangulate⟩, hM, ?_⟩
  rw [← ex_text, h _ N 1 (by simpa using hl) zero_lt_one le_rfl, ex_points, Set.ncard_coe_finset]
  congr 1

/-! ## An unbounded polyhedron -/

/-- The half line `1 - 2 x + 2 y = 0`, `x ≥ 0`, without integer points. -/
def exU : Empty.Problem 2 where
  rows := [(1, ![-2, 2]), (0, ![1, 0])]
  linearity := some [1]
  nonnegative := none
  nonnegFirst := false

theorem exU_text : text exU = "2 3 \n1 -2 2 \n0 1 0 \nlinearity 1 1 \n".toList := by decide +kernel

theorem exU_conditions (x : Fin 2 → ℝ) (h1 : 1 + (-2 * x 0 + 2 * x 1) = 0) (h2 : 0 ≤ x 0) : x ∈ exU.Solutions := by
  refine ⟨fun r hr => ?_, fun e he r hr => ?_, fun k hk => ?_⟩
  · simp only [exU, List.mem_cons, List.not_mem_nil, or_false] at hr
    rcases hr with rfl | rfl
    · simp [Fin.sum_univ_two]; linarith
    · simp [Fin.sum_univ_two]; linarith
  · simp only [exU, Option.getD_some, List.mem_singleton] at he
    subst he
    simp [exU] at hr
    subst hr
    simp [Fin.sum_univ_two]
    linarith
  · simp [exU] at hk

/-- With vertex cones from 4ti2 only 0 can be reported for this file. -/
example {T : Tools} (hT : T.Ok) (ha : RaysOk T.rays) (M : Movers) (v : Variant) (L : Limits) {r : ℤ}
    (hr : countFile T M ⟨.fourTiTwo, v⟩ L "2 3 \n1 -2 2 \n0 1 0 \nlinearity 1 1 \n".toList = .number r) : r = 0 := by
  rw [← exU_text] at hr
  refine (c96_unbounded hT ha M v L exU ⟨by decide, by decide, by decide⟩ ⟨by decide, by decide, by decide⟩ (Or.inl (by simp [exU])) rfl
    ⟨![1, 1 / 2], exU_conditions _ (by norm_num) (by norm_num)⟩ (y := ![1, 1]) ?_ ?_ hr).2
  · refine ⟨fun r hr => ?_, fun e he r hr => ?_, fun k hk => ?_⟩
    · simp only [exU, List.mem_cons, List.not_mem_nil, or_false] at hr
      rcases hr with rfl | rfl <;> simp [Fin.sum_univ_two]
    · simp only [exU, Option.getD_some, List.mem_singleton] at he
      subst he
      simp [exU] at hr
      subst hr
      simp [Fin.sum_univ_two]
    · simp [exU] at hk
  · intro h
    simpa using congrFun h 0

end Verif.Options
