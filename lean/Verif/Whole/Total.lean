import Verif.Whole.Main

/-!
# C91: an answer is found
-/

namespace Verif.Whole

open Verif.Barvinok Verif.Barvinok.Spec Verif.Ti2 Verif.Brion Verif.ExpSubst Verif.Files Verif.Preprocess

variable {n m : ℕ}

/-- Every triangulation goes through, with parts of full dimension. -/
def TriangulationTotal (T : Tools) : Prop :=
  ∀ d t (l : List (Vec (d + 1))), Regular.Spans l → ∀ k, ∃ parts k', T.triangulate d t l k = .ok (parts, k') ∧ ∀ p ∈ parts, p.length = d + 1

theorem reduced_ne {fuel : ℕ} {eqs : Fin m → Row n} {ineqs : List (Row n)} {cost : Fin n → ℤ} {dil : ℤ} (hi : ineqs ≠ []) (hmn : m ≤ n)
    {d : ℕ} {out : List (Row d)} {p : Fin n → ℤ} {B : Fin d → Fin n → ℤ} {newCost : Fin d → ℤ}
    (hrun : preprocessProblem fuel eqs ineqs cost dil = .reduced d out p B newCost) : out ≠ [] := by
  rw [preprocess_cases hi hmn] at hrun
  split at hrun
  · simp at hrun
  rename_i s hs'
  have h := ihermite_spec hs'
  rw [eliminate_eq hmn h] at hrun
  split at hrun
  · simp at hrun
  split at hrun
  · simp at hrun
  rename_i out' hout
  cases out' with
  | nil => simp [checkRows] at hrun
  | cons r rs =>
    simp only [checkRows] at hrun
    cases hrun
    simp

theorem countRows_total {T : Tools} (hT : T.Ok) (hsv : ∀ d, ShortVectors (T.ntl d)) (htri : TriangulationTotal T) (maxDet : ℤ) (fuel : ℕ) (h1 : 1 ≤ maxDet)
    (hmax : maxDet ≤ Piped.intMax) (hfuel : maxDet < fuel) {d : ℕ} (rows : List (Row (d + 1))) (hb : Bornology.IsBounded (Polyhedron (pairs rows))) (t : ℕ) :
    ∃ D : List (Cone (d + 1)), (∃ lam, GenericFor lam D) ∧ ∀ (guess : ∀ d, ℕ → Vec (d + 1)) (hermite tries : ℕ), GenericFor (guess d t) D → t < tries →
      countRows { T with guess := guess } ⟨maxDet, fuel, hermite, tries⟩ (d + 1) rows = .number (feasible rows).ncard := by
  obtain ⟨S, hS, hmem, hlen⟩ := feasible_list rows hb
  obtain ⟨D, hD, h⟩ := CddV.c88_total (hT.vertices (d + 1) (pairs rows)) hb T.rays (T.ntl d) (hT.ntl d) (hsv d) T.xgcd (T.irr d) maxDet h1 hmax fuel hfuel S hS hmem
    (T.triangulate d) (hT.triangulate d) t (fun t' _ l hl k => htri d t' l hl k)
  refine ⟨D t, hD t le_rfl, fun guess hermite tries hg ht => ?_⟩
  have := h (guess d) hg tries ht
  unfold countRows
  change (match CddV.countCdd (T.vertices (d + 1) (pairs rows)).1 (T.vertices (d + 1) (pairs rows)).2 T.rays (T.ntl d) T.xgcd (T.irr d) maxDet fuel (pairs rows)
    tries (T.triangulate d) (guess d) with | .number k => Ending.number k | .noNumber => .noNumber | .stop => .stop | .failed e => .failed e | .undefined => .undefined) = _
  rw [this, ← hlen]

/-- What is needed of the random vectors of the round `t`: they are not orthogonal to certain vectors; and enough rounds of the loop of the elimination. -/
theorem project_total {T : Tools} (hT : T.Ok) (hsv : ∀ d, ShortVectors (T.ntl d)) (htri : TriangulationTotal T) (maxDet : ℤ) (fuel : ℕ) (h1 : 1 ≤ maxDet)
    (hmax : maxDet ≤ Piped.intMax) (hfuel : maxDet < fuel) (hn : 0 < n)
    (E I : List (Row n)) (hind : IndependentR E) (hdir : ∀ y : Fin n → ℝ, (∀ q ∈ both E I, 0 ≤ dot q.2 y) → y = 0) (hpoint : E.length = n → I = []) (t : ℕ) :
    ∃ (d N : ℕ) (D : List (Cone (d + 1))), (∃ lam, GenericFor lam D) ∧ ∀ (guess : ∀ d, ℕ → Vec (d + 1)) (hermite tries : ℕ), GenericFor (guess d t) D → t < tries →
      N ≤ hermite → projectAndCount { T with guess := guess } ⟨maxDet, fuel, hermite, tries⟩ n E I = .number (solutions (fun j : Fin E.length => E.get j) I 1).ncard := by
  have hb := bounded_of_directions _ hdir
  have trivialD : ∃ lam : Vec 1, GenericFor lam ([] : List (Cone 1)) := ⟨0, fun C hC => by cases hC⟩
  by_cases hE : E = []
  · subst hE
    obtain ⟨n, rfl⟩ : ∃ n', n = n' + 1 := ⟨n - 1, by omega⟩
    obtain ⟨D, hD, h⟩ := countRows_total hT hsv htri maxDet fuel h1 hmax hfuel I hb t
    refine ⟨n, 0, D, hD, fun guess hermite tries hg ht _ => ?_⟩
    unfold projectAndCount
    rw [if_pos rfl, h guess hermite tries hg ht]
    congr 3
    ext z
    exact ⟨fun hz => ⟨fun j => j.elim0, hz⟩, fun hz => hz.2⟩
  have hfin : (solutions (fun j : Fin E.length => E.get j) I 1).Finite := (finite_of_bounded hb).subset fun z hz => (solutions_iff E I z).1 hz
  by_cases hI : I = []
  · subst hI
    by_cases hlen : E.length = n
    · refine ⟨0, 0, [], trivialD, fun guess hermite tries _ _ _ => ?_⟩
      unfold projectAndCount
      rw [if_neg hE, no_inequalities hlen _ _ _ hind.int]
    · exfalso
      obtain ⟨v, hv, h0⟩ := (c67_not_bounded (fuel := 0) (eqs := fun j : Fin E.length => E.get j) 0 1 (lt_of_le_of_ne hind.le hlen)).2
      have := hdir (fun k => (v k : ℝ)) ((dir_both E [] _).2 ⟨fun r hr => ?_, fun r hr => by cases hr⟩)
      · apply hv
        funext k
        have hk : (v k : ℝ) = 0 := congrFun this k
        exact_mod_cast hk
      · obtain ⟨j, rfl⟩ := List.get_of_mem hr
        have h2 : ∑ k, ((E.get j).a k : ℝ) * (v k : ℝ) = 0 := by exact_mod_cast h0 j
        exact h2
  have hlt : E.length < n := lt_of_le_of_ne hind.le fun hh => hI (hpoint hh)
  obtain ⟨N, o, ho, hcase⟩ := c67_ends (fun j : Fin E.length => E.get j) 0 1 hI hlt.le
  rcases hcase with rfl | ⟨d, out, p, B, c, rfl⟩
  · refine ⟨0, N, [], trivialD, fun guess hermite tries _ _ hN => ?_⟩
    unfold projectAndCount
    rw [if_neg hE, ho hermite hN, c67_reported_count hI hlt (Or.inr ⟨hind.int, rfl⟩) hfin (ho hermite hN)]
  · have hrun := ho N le_rfl
    have hb' : Bornology.IsBounded (Polyhedron (pairs out)) := by
      refine bounded_of_directions _ fun y hy => reduced_directions hI hlt.le (fun y h1 h2 => hdir y ((dir_both E I y).2 ⟨fun r hr => ?_, h2⟩)) hrun y fun r hr => ?_
      · obtain ⟨j, rfl⟩ := List.get_of_mem hr
        exact h1 j
      · exact hy (r.b, r.a) (List.mem_map.2 ⟨r, hr, rfl⟩)
    obtain ⟨r0, out', hout⟩ := List.exists_cons_of_ne_nil (reduced_ne hI hlt.le hrun)
    obtain ⟨j0, -⟩ := (c67_lattice_points hI hlt.le (Or.inr hind.int) hrun).2.1 r0 (by rw [hout]; simp)
    cases d with
    | zero => exact j0.elim0
    | succ d =>
      obtain ⟨D, hD, h⟩ := countRows_total hT hsv htri maxDet fuel h1 hmax hfuel out hb' t
      refine ⟨d, N, D, hD, fun guess hermite tries hg ht hN => ?_⟩
      unfold projectAndCount
      rw [if_neg hE, ho hermite hN]
      show countRows _ _ (d + 1) out = _
      rw [h guess hermite tries hg ht, c67_ncard hI hlt.le (Or.inr hind.int) hrun]

/-- **C91: an answer is found.** For every such file, in the round `t`: there are finitely many cones such that the program reports the number of integer points as soon as the
random vector of this round is generic for them (such vectors exist), the loop of the elimination may run long enough, and the round is reached. -/
theorem c91_total {T : Tools} (hT : T.Ok) (hsv : ∀ d, ShortVectors (T.ntl d)) (htri : TriangulationTotal T) (maxDet : ℤ) (fuel : ℕ) (h1 : 1 ≤ maxDet)
    (hmax : maxDet ≤ Piped.intMax) (hfuel : maxDet < fuel) (hn : 0 < n)
    (P : Empty.Problem n) (h : P.Ok) (hs : Small P) (h0 : P.rows ≠ []) (hf : P.nonnegFirst = false) (hd : P.Directions = {0}) (t : ℕ) :
    ∃ (d N : ℕ) (D : List (Cone (d + 1))), (∃ lam, GenericFor lam D) ∧ ∀ (guess : ∀ d, ℕ → Vec (d + 1)) (hermite tries : ℕ), GenericFor (guess d t) D → t < tries →
      N ≤ hermite → countFile { T with guess := guess } ⟨maxDet, fuel, hermite, tries⟩ (text P) = .number (integerPoints P).ncard := by
  have hT' : ∀ guess : ∀ d, ℕ → Vec (d + 1), ({ T with guess := guess } : Tools).Ok := fun guess => ⟨hT.lp, hT.canonicalize, hT.vertices, hT.ntl, hT.triangulate⟩
  by_cases hne : P.Solutions.Nonempty
  · have hmat : ∃ E I : List (Row n), Split P E I ∧ ∀ guess L, countMatrix { T with guess := guess } L (matrix P) = projectAndCount { T with guess := guess } L n E I := by
      have hc : Canonical n (matrix P) (T.canonicalize (matrix P)) := hT.canonicalize n (matrix P) rfl rfl (matrix_length P) (by rw [sols_matrix P h]; exact hne)
      have hint : ∀ r ∈ (T.canonicalize (matrix P)).rows, Integral r := fun r hr => matrix_integral P r (hc.rows r hr)
      exact ⟨_, _, split_canonical P h hc, fun guess L => countMatrix_eq (T := { T with guess := guess }) (by show (T.canonicalize (matrix P)).colsize - 1 = n; rw [hc.cols]; rfl) hint⟩
    obtain ⟨E, I, hsplit, he⟩ := hmat
    obtain ⟨d, N, D, hD, hall⟩ := project_total hT hsv htri maxDet fuel h1 hmax hfuel hn E I hsplit.independent (hsplit.directions hne hd) (hsplit.point hne) t
    refine ⟨d, N, D, hD, fun guess hermite tries hg ht hN => ?_⟩
    rw [(countFile_eq (hT' guess) _ P h hs (Or.inl h0) hf).1 hne, he, hall guess hermite tries hg ht hN, hsplit.ncard]
  · rw [Set.not_nonempty_iff_eq_empty] at hne
    refine ⟨0, 0, [], ⟨0, fun C hC => by cases hC⟩, fun guess hermite tries _ _ _ => ?_⟩
    rw [(countFile_eq (hT' guess) _ P h hs (Or.inl h0) hf).2 hne hd]
    have : integerPoints P = ∅ := by
      ext z
      rw [integerPoints_iff, hne]
      simp
    rw [this]
    simp

end Verif.Whole
