import Verif.Whole.Total
import Verif.Regular.Poly

/-!
# C91: the vertex cones of the polytope in a file

The part of `count` before the substitution, as a function of its own, and what it delivers: the number itself, or the vertices with the normal cones of a polytope that has as many
integer points as the file says.  From this the theorem for the default substitution follows.
-/

namespace Verif.Whole

open Verif.Barvinok Verif.Barvinok.Spec Verif.Ti2 Verif.Brion Verif.ExpSubst Verif.Files Verif.Preprocess

variable {n m : ℕ}

/-! ## Model -/

/-- Where `count` is before the substitution: ended, or with vertices and dualized vertex cones in hand (count.cpp:547–620). -/
inductive Stage where
  | ended (e : Ending)
  | cones (d : ℕ) (l : List ((Fin (d + 1) → ℚ) × List (Vec (d + 1))))

/-- `matrixToVerticesOrCones` with cdd (ReadPolyhedron.cpp:293–330), count.cpp:354–371, 396–412: `computeVertexCones`, tight inequalities, dualization. -/
def coneRows (T : Tools) : ∀ d, List (Row d) → Stage
  | 0, _ => .ended .undefined
  | d + 1, rows =>
    let ineqs : List (ℤ × Vec (d + 1)) := rows.map fun r => (r.b, r.a)
    match (CddV.computeVertexCones (T.vertices (d + 1) ineqs).1 (T.vertices (d + 1) ineqs).2 : CddV.Outcome (d + 1)) with
    | .done (some k) => .ended (.number k)
    | .done none => .ended .noNumber
    | .stop => .ended .stop
    | .undefined => .ended .undefined
    | .cones cones =>
      match dualizeCones T.rays ((cones.map (tightFacets ineqs)).map (tightFacets ineqs)) with
      | .error e => .ended (.failed e)
      | .ok cones => .cones d (cones.map fun C => (C.vertex, C.rays))

/-- `projectOutVariables`, ReadPolyhedron.cpp:745–806, with dilation 1, and what follows. -/
def projectCones (T : Tools) (hermite : ℕ) (n : ℕ) (E I : List (Row n)) : Stage :=
  if E = [] then coneRows T n I
  else
    match preprocessProblem hermite (fun j : Fin E.length => E.get j) I 0 1 with
    | .count k => .ended (.number k)
    | .notBounded => .ended .notBounded
    | .crash => .ended .undefined
    | .fuel => .ended (.failed .fuel)
    | .reduced d out _ _ _ => coneRows T d out

/-- `PolyhedronFromHrepMatrix`, ReadPolyhedron.cpp:665–692. -/
def matrixCones (T : Tools) (hermite : ℕ) (M : LMatrix) : Stage :=
  match splitRows ((T.canonicalize M).colsize - 1) (T.canonicalize M).linset 0 (T.canonicalize M).rows with
  | none => .ended (.failed .abort)
  | some (E, I) => projectCones T hermite ((T.canonicalize M).colsize - 1) E I

/-- `read_polyhedron_hairy`, ReadPolyhedron.cpp:640–663. -/
def fileCones (T : Tools) (hermite : ℕ) (s : List Char) : Stage :=
  match Empty.checkEmpty T.lp (tokens s) with
  | none => .ended .undefined
  | some .exit1 => .ended .stop
  | some .undefined => .ended .undefined
  | some (.thrown text) =>
    match scanInt text.toList with
    | some (k, _) => .ended (.number k)
    | none => .ended .stop
  | some .done =>
    match readLatteStyleMatrix s false false false with
    | .error => .ended .stop
    | .outOfBounds => .ended .undefined
    | .ok M => matrixCones T hermite M

/-- The rest of the program, given the substitution. -/
def finish (subst : ∀ d, List ((Fin (d + 1) → ℚ) × List (Vec (d + 1))) → Except Fail ℤ) : Stage → Ending
  | .ended e => e
  | .cones d l => match subst d l with | .ok k => .number k | .error e => .failed e

/-- `--exp`. -/
def expSubst (T : Tools) (L : Limits) (d : ℕ) (l : List ((Fin (d + 1) → ℚ) × List (Vec (d + 1)))) : Except Fail ℤ :=
  Regular.triangulateAndCount (T.ntl d) T.xgcd .dual (T.irr d) L.maxDet L.fuel l L.tries (T.triangulate d) (T.guess d)

/-- The default, count.cpp:510–545: `decomposeAndComputeResidue`. -/
def polySubst (T : Tools) (L : Limits) (d : ℕ) (l : List ((Fin (d + 1) → ℚ) × List (Vec (d + 1)))) : Except Fail ℤ :=
  Regular.triangulateAndResidue (T.ntl d) T.xgcd .dual (T.irr d) L.maxDet L.fuel l L.tries (T.triangulate d) (T.guess d)

/-- **`count FILE`** without any options. -/
def countDefault (T : Tools) (L : Limits) (s : List Char) : Ending := finish (polySubst T L) (fileCones T L.hermite s)

/-! ## Agreement with the model of `count --exp` -/

theorem countRows_finish (T : Tools) (L : Limits) (d : ℕ) (rows : List (Row d)) : countRows T L d rows = finish (expSubst T L) (coneRows T d rows) := by
  cases d with
  | zero => rfl
  | succ d =>
    unfold countRows coneRows CddV.countCdd
    dsimp only
    generalize (CddV.computeVertexCones (T.vertices (d + 1) (rows.map fun r => (r.b, r.a))).1 (T.vertices (d + 1) (rows.map fun r => (r.b, r.a))).2 : CddV.Outcome (d + 1)) = o
    match o with
    | .done (some k) => rfl
    | .done none => rfl
    | .stop => rfl
    | .undefined => rfl
    | .cones cones =>
      dsimp only
      generalize dualizeCones T.rays _ = u
      match u with
      | .error e => rfl
      | .ok cs =>
        unfold finish expSubst
        dsimp only
        generalize Regular.triangulateAndCount _ _ _ _ _ _ _ _ _ _ = w
        match w with
        | .error e => rfl
        | .ok k => rfl

/-- The two descriptions of `count --exp` agree. -/
theorem countFile_finish (T : Tools) (L : Limits) (s : List Char) : countFile T L s = finish (expSubst T L) (fileCones T L.hermite s) := by
  unfold countFile fileCones
  generalize Empty.checkEmpty T.lp (tokens s) = o
  match o with
  | none => rfl
  | some .exit1 => rfl
  | some .undefined => rfl
  | some (.thrown text) =>
    dsimp only
    generalize scanInt text.toList = u
    match u with
    | some (k, _) => rfl
    | none => rfl
  | some .done =>
    dsimp only
    generalize readLatteStyleMatrix s false false false = u
    match u with
    | .error => rfl
    | .outOfBounds => rfl
    | .ok M =>
      dsimp only
      unfold countMatrix matrixCones
      generalize splitRows _ _ _ _ = w
      match w with
      | none => rfl
      | some (E, I) =>
        dsimp only
        unfold projectAndCount projectCones
        by_cases hE : E = []
        · rw [if_pos hE, if_pos hE, countRows_finish]
        · rw [if_neg hE, if_neg hE]
          generalize preprocessProblem L.hermite _ I 0 1 = v
          match v with
          | .count k => rfl
          | .notBounded => rfl
          | .crash => rfl
          | .fuel => rfl
          | .reduced d out _ _ _ => exact countRows_finish T L d out

/-! ## What is delivered -/

/-- **Specification.** The list consists of the vertices and generators of the normal cones of a bounded polyhedron with `k` integer points. -/
def VertexCones (k : ℕ) {d : ℕ} (l : List ((Fin (d + 1) → ℚ) × List (Vec (d + 1)))) : Prop :=
  ∃ (N : ℕ) (a : Fin N → Vec (d + 1)) (b : Fin N → ℚ) (S : List (Vec (d + 1))),
    Bornology.IsBounded (Poly a fun i => (b i : ℝ)) ∧ LatticePoints a b S ∧ S.length = k ∧ IsVertexList a b (l.map (·.1)) ∧ Regular.NormalRays a b l

/-- The right result: the number, or the vertex cones. -/
def Stage.Right (k : ℕ) : Stage → Prop
  | .ended e => e = .number k
  | .cones _ l => VertexCones k l

theorem coneRows_right {T : Tools} (hT : T.Ok) {d : ℕ} (rows : List (Row (d + 1))) (hb : Bornology.IsBounded (Polyhedron (pairs rows))) :
    (coneRows T (d + 1) rows).Right (feasible rows).ncard := by
  obtain ⟨S, hS, hmem, hlen⟩ := feasible_list rows hb
  have hc := hT.vertices (d + 1) (pairs rows)
  rw [← hlen]
  unfold coneRows
  change Stage.Right S.length (match (CddV.computeVertexCones (T.vertices (d + 1) (pairs rows)).1 (T.vertices (d + 1) (pairs rows)).2 : CddV.Outcome (d + 1)) with
    | .done (some k) => .ended (.number k)
    | .done none => .ended .noNumber
    | .stop => .ended .stop
    | .undefined => .ended .undefined
    | .cones cones =>
      match dualizeCones T.rays ((cones.map (tightFacets (pairs rows))).map (tightFacets (pairs rows))) with
      | .error e => .ended (.failed e)
      | .ok cones => .cones d (cones.map fun C => (C.vertex, C.rays)))
  by_cases h2 : 2 ≤ (T.vertices (d + 1) (pairs rows)).1.length
  · obtain ⟨cones, hco, hver, hvs, hcs⟩ := CddV.c88_cones (Nat.succ_pos d) hc hb h2
    have hcomp : ∀ C ∈ cones, (tightFacets (pairs rows) C).facets = computeTight (pairs rows) C.vertex [] := by
      intro C hC
      unfold tightFacets
      rw [(hcs C hC).2.2.2.1]
    have hne : ∀ C ∈ cones.map (tightFacets (pairs rows)), C.facets ≠ [] := by
      intro C' hC' h0
      obtain ⟨C, hC, rfl⟩ := List.mem_map.1 hC'
      rw [hcomp C hC] at h0
      have hx := (hvs.mem _).1 ⟨C.vertex, List.mem_map_of_mem hC, rfl⟩
      have hg := Regular.normalRays_tight (pairs rows) [C.vertex] (C.vertex, computeTight (pairs rows) C.vertex []) (by simp)
      have := Regular.spans_of_vertex (normals (pairs rows)) (sides (pairs rows)) C.vertex hx _ hg (fun _ => 1) (by simp only [h0]; simp)
      have h1 := congrFun this 0
      norm_num at h1
    have h1 : (cones.map (tightFacets (pairs rows))).map (tightFacets (pairs rows)) = cones.map (tightFacets (pairs rows)) := by
      conv_rhs => rw [← List.map_id (cones.map (tightFacets (pairs rows)))]
      exact List.map_congr_left fun C hC => tightFacets_id (pairs rows) C (hne C hC)
    rw [hco]
    simp only [h1]
    rw [dualizeCones_swap T.rays _ hne]
    simp only [List.map_map]
    have e : cones.map ((fun C : GCone (d + 1) => (C.vertex, C.rays)) ∘ GCone.swap ∘ tightFacets (pairs rows)) =
        ((T.vertices (d + 1) (pairs rows)).1.map CddV.rowPoint).map fun v => (v, computeTight (pairs rows) v []) := by
      rw [← hver, List.map_map]
      refine List.map_congr_left fun C hC => ?_
      show (C.vertex, (tightFacets (pairs rows) C).facets) = (C.vertex, computeTight (pairs rows) C.vertex [])
      rw [hcomp C hC]
    rw [e]
    refine ⟨_, normals (pairs rows), sides (pairs rows), S, by rw [← polyhedron_eq]; exact hb, ⟨hS, fun z => by rw [hmem, lattice_iff]⟩, rfl, ?_, Regular.normalRays_tight _ _⟩
    rw [List.map_map]
    exact (List.map_id _).symm ▸ hc.vertices (CddV.no_direction hc hb)
  · rw [CddV.c88_few_vertices hc hb (by omega) S hS hmem]
    exact rfl

/-- Without enough rounds the elimination stops; else it reports 0 or goes on. -/
theorem preprocess_three {fuel : ℕ} {eqs : Fin m → Row n} {ineqs : List (Row n)} (cost : Fin n → ℤ) (dil : ℤ) (hi : ineqs ≠ []) (hmn : m ≤ n) :
    preprocessProblem fuel eqs ineqs cost dil = .fuel ∨ preprocessProblem fuel eqs ineqs cost dil = .count 0 ∨
      ∃ d out p B c, preprocessProblem fuel eqs ineqs cost dil = .reduced d out p B c := by
  rw [preprocess_cases hi hmn]
  split
  · exact Or.inl rfl
  · rename_i s hs
    right
    rw [eliminate_eq hmn (ihermite_spec hs)]
    split
    · exact Or.inl rfl
    · split
      · exact Or.inl rfl
      · rename_i out _
        cases out with
        | nil => exact Or.inl rfl
        | cons r rs => exact Or.inr ⟨_, _, _, _, _, rfl⟩

/-- The elimination delivers the right thing if its loop may run long enough. -/
theorem projectCones_right {T : Tools} (hT : T.Ok) (hn : 0 < n) (E I : List (Row n)) (hind : IndependentR E)
    (hdir : ∀ y : Fin n → ℝ, (∀ q ∈ both E I, 0 ≤ dot q.2 y) → y = 0) (hpoint : E.length = n → I = []) (hermite : ℕ)
    (hrounds : E = [] ∨ preprocessProblem hermite (fun j : Fin E.length => E.get j) I 0 1 ≠ .fuel) :
    (projectCones T hermite n E I).Right (solutions (fun j : Fin E.length => E.get j) I 1).ncard := by
  have hb := bounded_of_directions _ hdir
  unfold projectCones
  by_cases hE : E = []
  · subst hE
    obtain ⟨n, rfl⟩ : ∃ n', n = n' + 1 := ⟨n - 1, by omega⟩
    rw [if_pos rfl]
    have e : solutions (fun j : Fin ([] : List (Row (n + 1))).length => [].get j) I 1 = feasible I := by
      ext z
      exact ⟨fun hz => hz.2, fun hz => ⟨fun j => j.elim0, hz⟩⟩
    rw [e]
    exact coneRows_right hT I hb
  rw [if_neg hE]
  have hfin : (solutions (fun j : Fin E.length => E.get j) I 1).Finite := (finite_of_bounded hb).subset fun z hz => (solutions_iff E I z).1 hz
  by_cases hI : I = []
  · subst hI
    by_cases hlen : E.length = n
    · rw [no_inequalities hlen _ _ _ hind.int]
      exact rfl
    · exfalso
      obtain ⟨v, hv, h0⟩ := (c67_not_bounded (fuel := 0) (eqs := fun j : Fin E.length => E.get j) 0 1 (lt_of_le_of_ne hind.le hlen)).2
      have := hdir (fun k => (v k : ℝ)) ((dir_both E [] _).2 ⟨fun r hr => ?_, fun r hr => by cases hr⟩)
      · apply hv
        funext k
        have hk : (v k : ℝ) = 0 := congrFun this k
        exact_mod_cast hk
      · obtain ⟨j, rfl⟩ := List.get_of_mem hr
        have h2 : ∑ k, ((E.get j).a k : ℝ) * (v k : ℝ) = 0 := by exact_mod_cast h0 j
        exact h2
  have hlt : E.length < n := lt_of_le_of_ne hind.le fun hh => hI (hpoint hh)
  rcases preprocess_three (fuel := hermite) (eqs := fun j : Fin E.length => E.get j) 0 1 hI hlt.le with h | h | ⟨d, out, p, B, c, hrun⟩
  · exact absurd h (hrounds.resolve_left hE)
  · rw [h, c67_reported_count hI hlt (Or.inr ⟨hind.int, rfl⟩) hfin h]
    exact rfl
  · have hb' : Bornology.IsBounded (Polyhedron (pairs out)) := by
      refine bounded_of_directions _ fun y hy => reduced_directions hI hlt.le (fun y h1 h2 => hdir y ((dir_both E I y).2 ⟨fun r hr => ?_, h2⟩)) hrun y fun r hr => ?_
      · obtain ⟨j, rfl⟩ := List.get_of_mem hr
        exact h1 j
      · exact hy (r.b, r.a) (List.mem_map.2 ⟨r, hr, rfl⟩)
    obtain ⟨r0, out', hout⟩ := List.exists_cons_of_ne_nil (reduced_ne hI hlt.le hrun)
    obtain ⟨j0, -⟩ := (c67_lattice_points hI hlt.le (Or.inr hind.int) hrun).2.1 r0 (by rw [hout]; simp)
    rw [hrun, ← c67_ncard hI hlt.le (Or.inr hind.int) hrun]
    cases d with
    | zero => exact j0.elim0
    | succ d => exact coneRows_right hT out hb'

/-- There is a number of rounds that suffices. -/
theorem projectCones_rounds (T : Tools) (E I : List (Row n)) (hind : IndependentR E) (hpoint : E.length = n → I = []) :
    ∃ N, ∀ hermite, N ≤ hermite → (E = [] ∨ preprocessProblem hermite (fun j : Fin E.length => E.get j) I 0 1 ≠ .fuel) ∧
      projectCones T hermite n E I = projectCones T N n E I := by
  by_cases hE : E = []
  · exact ⟨0, fun hermite _ => ⟨Or.inl hE, by unfold projectCones; rw [if_pos hE, if_pos hE]⟩⟩
  obtain ⟨N, o, ho, hne⟩ : ∃ N o, (∀ hermite, N ≤ hermite → preprocessProblem hermite (fun j : Fin E.length => E.get j) I 0 1 = o) ∧ o ≠ .fuel := by
    by_cases hI : I = []
    · subst hI
      by_cases hlen : E.length = n
      · exact ⟨0, _, fun _ _ => no_inequalities hlen _ _ _ hind.int, by simp⟩
      · exact ⟨0, _, fun _ _ => (c67_not_bounded (eqs := fun j : Fin E.length => E.get j) 0 1 (lt_of_le_of_ne hind.le hlen)).1, by simp⟩
    · have hlt : E.length < n := lt_of_le_of_ne hind.le fun hh => hI (hpoint hh)
      obtain ⟨N, o, ho, hcase⟩ := c67_ends (fun j : Fin E.length => E.get j) 0 1 hI hlt.le
      refine ⟨N, o, ho, ?_⟩
      rcases hcase with rfl | ⟨d, out, p, B, c, rfl⟩ <;> simp
  refine ⟨N, fun hermite hN => ⟨Or.inr (by rw [ho hermite hN]; exact hne), ?_⟩⟩
  unfold projectCones
  rw [if_neg hE, if_neg hE, ho hermite hN, ho N le_rfl]

theorem matrixCones_eq {T : Tools} {hermite : ℕ} {M : LMatrix} (hc : (T.canonicalize M).colsize - 1 = n) (h : ∀ r ∈ (T.canonicalize M).rows, Integral r) :
    matrixCones T hermite M = projectCones T hermite n ((part (T.canonicalize M) true).map (intRow n)) ((part (T.canonicalize M) false).map (intRow n)) := by
  unfold matrixCones
  subst hc
  rw [splitRows_eq _ h]

/-- **C91, the vertex cones.** For every file that describes a polytope or an empty set: if the loop of the elimination may run long enough, the program ends with the right number or
has the vertices and normal cones of a bounded polyhedron with the right number of integer points in hand; if not, it has no result. -/
theorem c91_cones {T : Tools} (hT : T.Ok) (hn : 0 < n) (P : Empty.Problem n) (h : P.Ok) (hs : Small P) (h0 : P.rows ≠ []) (hf : P.nonnegFirst = false)
    (hd : P.Directions = {0}) :
    (∀ hermite, (fileCones T hermite (text P)).Right (integerPoints P).ncard ∨ fileCones T hermite (text P) = .ended (.failed .fuel)) ∧
      ∃ N st, st.Right (integerPoints P).ncard ∧ ∀ hermite, N ≤ hermite → fileCones T hermite (text P) = st := by
  obtain ⟨h1, h2⟩ := Empty.c86_decides T.lp hT.lp P h (Or.inl h0) (by rw [hf]; simp)
  by_cases hne : P.Solutions.Nonempty
  · have hc : Canonical n (matrix P) (T.canonicalize (matrix P)) := hT.canonicalize n (matrix P) rfl rfl (matrix_length P) (by rw [sols_matrix P h]; exact hne)
    have hcols : (T.canonicalize (matrix P)).colsize - 1 = n := by rw [hc.cols]; rfl
    have hint : ∀ r ∈ (T.canonicalize (matrix P)).rows, Integral r := fun r hr => matrix_integral P r (hc.rows r hr)
    have hsplit := split_canonical P h hc
    have he : ∀ hermite, fileCones T hermite (text P) = projectCones T hermite n ((part (T.canonicalize (matrix P)) true).map (intRow n))
        ((part (T.canonicalize (matrix P)) false).map (intRow n)) := by
      intro hermite
      unfold fileCones
      rw [tokens_text P hf, h1 hne, read_text P h hs.rows hs.cols hs.nonneg]
      exact matrixCones_eq hcols hint
    generalize (part (T.canonicalize (matrix P)) true).map (intRow n) = E at *
    generalize (part (T.canonicalize (matrix P)) false).map (intRow n) = I at *
    have hright : ∀ hermite, _ → _ := fun hermite hr => projectCones_right hT hn E I hsplit.independent (hsplit.directions hne hd) (hsplit.point hne) hermite hr
    constructor
    · intro hermite
      rw [he, ← hsplit.ncard]
      by_cases hr : E = [] ∨ preprocessProblem hermite (fun j : Fin E.length => E.get j) I 0 1 ≠ .fuel
      · exact Or.inl (hright hermite hr)
      · right
        push Not at hr
        unfold projectCones
        rw [if_neg hr.1, hr.2]
    · obtain ⟨N, hN⟩ := projectCones_rounds T E I hsplit.independent (hsplit.point hne)
      refine ⟨N, _, ?_, fun hermite hh => by rw [he hermite, (hN hermite hh).2]⟩
      rw [← hsplit.ncard]
      exact hright N (hN N le_rfl).1
  · rw [Set.not_nonempty_iff_eq_empty] at hne
    have e0 : integerPoints P = ∅ := by
      ext z
      rw [integerPoints_iff, hne]
      simp
    have he : ∀ hermite, fileCones T hermite (text P) = .ended (.number 0) := by
      intro hermite
      unfold fileCones
      rw [tokens_text P hf, h2 hne hd]
      rfl
    rw [e0]
    refine ⟨fun hermite => Or.inl ?_, 0, .ended (.number 0), ?_, fun hermite _ => he hermite⟩
    · rw [he]
      simp [Stage.Right]
    · simp [Stage.Right]

end Verif.Whole
