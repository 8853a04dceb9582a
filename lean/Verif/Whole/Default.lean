import Verif.Whole.Cones
import Verif.Regular.CountExample

/-!
# C91: `count FILE` without options
-/

namespace Verif.Whole

open Verif.Barvinok Verif.Barvinok.Spec Verif.Ti2 Verif.Brion Verif.ExpSubst Verif.Files Verif.Preprocess

variable {n : ℕ}

/-- **Specification.** In one of the rounds `t < tries` the decomposition of the vertex cones of the file has more than `5·10⁹` terms (or lattice points of a parallelepiped do not fit
into `int`). Then the fixed precision of ten digits need not suffice (C70). -/
def ManyTerms (T : Tools) (L : Limits) (s : List Char) : Prop :=
  ∃ d l, fileCones T L.hermite s = .cones d l ∧
    (Piped.intMax < ((d + 1 : ℕ) : ℤ) * L.maxDet ∨ ∃ t < L.tries, ¬ Regular.FewTerms (T.ntl d) (T.irr d) L.maxDet (T.triangulate d t) l)

/-- **C91 without options: the number reported for a file is the number of integer points**, unless a decomposition has more than `5·10⁹` terms.  Whatever the random numbers and
triangulations are. -/
theorem c91_default {T : Tools} (hT : T.Ok) (hsv : ∀ d, ShortVectors (T.ntl d)) {L : Limits} (h1 : 1 ≤ L.maxDet) (hfuel : L.maxDet < L.fuel) (hn : 0 < n)
    (P : Empty.Problem n) (h : P.Ok) (hs : Small P) (h0 : P.rows ≠ []) (hf : P.nonnegFirst = false) (hd : P.Directions = {0})
    {r : ℤ} (hr : countDefault T L (text P) = .number r) : r = (integerPoints P).ncard ∨ ManyTerms T L (text P) := by
  unfold countDefault at hr
  rcases (c91_cones hT hn P h hs h0 hf hd).1 L.hermite with hst | hst
  · cases hc : fileCones T L.hermite (text P) with
    | ended e =>
      rw [hc] at hst hr
      left
      have hst : e = .number (integerPoints P).ncard := hst
      have hr : e = .number r := hr
      rw [hst] at hr
      exact (Ending.number.inj hr).symm
    | cones d l =>
      rw [hc] at hst hr
      obtain ⟨N, a, b, S, -, hS, hlen, hvs, hnr⟩ := hst
      by_cases hmany : ManyTerms T L (text P)
      · exact Or.inr hmany
      left
      have hmax : ((d + 1 : ℕ) : ℤ) * L.maxDet ≤ Piped.intMax := by
        by_contra hlt
        exact hmany ⟨d, l, hc, Or.inl (not_le.1 hlt)⟩
      have hfew : ∀ t < L.tries, Regular.FewTerms (T.ntl d) (T.irr d) L.maxDet (T.triangulate d t) l := by
        intro t ht
        by_contra hlt
        exact hmany ⟨d, l, hc, Or.inr ⟨t, ht, hlt⟩⟩
      unfold finish polySubst at hr
      dsimp only at hr
      split at hr
      · rename_i k hk
        obtain rfl := Ending.number.inj hr
        rw [Regular.c76_poly_count (T.ntl d) (hT.ntl d) (hsv d) T.xgcd (T.irr d) L.maxDet h1 hmax L.fuel hfuel a b S hS l hvs hnr L.tries _ (hT.triangulate d) hfew _ _ hk, hlen]
      · cases hr
  · rw [hst] at hr
    cases hr

/-- **C91 without options: an answer is found.** For every such file, in the round `t`: there are finitely many cones such that the program reports the number of integer points as soon
as the random vector of this round is generic for them (such vectors exist), the loop of the elimination may run long enough, and the round is reached, unless a decomposition has more
than `5·10⁹` terms. -/
theorem c91_default_total {T : Tools} (hT : T.Ok) (hsv : ∀ d, ShortVectors (T.ntl d)) (htri : TriangulationTotal T) (maxDet : ℤ) (fuel : ℕ) (h1 : 1 ≤ maxDet)
    (hfuel : maxDet < fuel) (hn : 0 < n)
    (P : Empty.Problem n) (h : P.Ok) (hs : Small P) (h0 : P.rows ≠ []) (hf : P.nonnegFirst = false) (hd : P.Directions = {0}) (t : ℕ) :
    ∃ (d N : ℕ) (D : List (Cone (d + 1))), (∃ lam, GenericFor lam D) ∧ ∀ (guess : ∀ d, ℕ → Vec (d + 1)) (hermite tries : ℕ), GenericFor (guess d t) D → t < tries →
      N ≤ hermite → countDefault { T with guess := guess } ⟨maxDet, fuel, hermite, tries⟩ (text P) = .number (integerPoints P).ncard ∨
        ManyTerms T ⟨maxDet, fuel, hermite, tries⟩ (text P) := by
  obtain ⟨N, st, hst, hall⟩ := (c91_cones hT hn P h hs h0 hf hd).2
  have hfile : ∀ (guess : ∀ d, ℕ → Vec (d + 1)) hermite, fileCones { T with guess := guess } hermite (text P) = fileCones T hermite (text P) := by
    intro guess hermite
    have e0 : ∀ d rows, coneRows { T with guess := guess } d rows = coneRows T d rows := by
      intro d rows
      cases d <;> rfl
    have e1 : ∀ n (E I : List (Row n)), projectCones { T with guess := guess } hermite n E I = projectCones T hermite n E I := by
      intro n E I
      unfold projectCones
      simp only [e0]
    have e2 : ∀ M, matrixCones { T with guess := guess } hermite M = matrixCones T hermite M := by
      intro M
      unfold matrixCones
      dsimp only
      generalize splitRows _ _ _ _ = w
      match w with
      | none => rfl
      | some (E, I) => exact e1 _ E I
    unfold fileCones
    dsimp only
    generalize Empty.checkEmpty _ _ = o
    match o with
    | none => rfl
    | some .exit1 => rfl
    | some .undefined => rfl
    | some (.thrown text) => rfl
    | some .done =>
      dsimp only
      generalize readLatteStyleMatrix _ _ _ _ = u
      match u with
      | .error => rfl
      | .outOfBounds => rfl
      | .ok M => exact e2 M
  cases st with
  | ended e =>
    refine ⟨0, N, [], ⟨0, fun C hC => by cases hC⟩, fun guess hermite tries _ _ hN => Or.inl ?_⟩
    unfold countDefault
    show finish _ (fileCones _ hermite (text P)) = _
    rw [hfile, hall hermite hN]
    exact hst
  | cones d l =>
    obtain ⟨M, a, b, S, -, hS, hlen, hvs, hnr⟩ := hst
    by_cases hfew : ((d + 1 : ℕ) : ℤ) * maxDet ≤ Piped.intMax ∧ ∀ s ≤ t, Regular.FewTerms (T.ntl d) (T.irr d) maxDet (T.triangulate d s) l
    · obtain ⟨D, hD, hgo⟩ := Regular.c76_poly_total (T.ntl d) (hT.ntl d) (hsv d) T.xgcd (T.irr d) maxDet h1 hfew.1 fuel hfuel a b S hS l hvs hnr (T.triangulate d)
        (hT.triangulate d) t hfew.2 (fun s _ c hc k => htri d s c.2 (by
          refine Regular.spans_of_vertex a b c.1 ?_ c.2 (hnr c hc)
          exact (hvs.mem _).1 ⟨c.1, List.mem_map_of_mem hc, rfl⟩) k)
      refine ⟨d, N, D t, hD t le_rfl, fun guess hermite tries hg ht hN => Or.inl ?_⟩
      unfold countDefault
      show finish _ (fileCones _ hermite (text P)) = _
      rw [hfile, hall hermite hN]
      unfold finish polySubst
      dsimp only
      rw [hgo (guess d) hg tries ht]
      dsimp only
      rw [hlen]
    · refine ⟨0, N, [], ⟨0, fun C hC => by cases hC⟩, fun guess hermite tries _ ht hN => Or.inr ?_⟩
      rw [not_and_or] at hfew
      refine ⟨d, l, hall hermite hN, ?_⟩
      rcases hfew with hfew | hfew
      · exact Or.inl (not_le.1 hfew)
      · push Not at hfew
        obtain ⟨s, hs, hns⟩ := hfew
        exact Or.inr ⟨s, lt_of_le_of_lt hs ht, hns⟩

end Verif.Whole

namespace Verif.Regular

open Verif.Barvinok Verif.ExpSubst Verif.Brion Verif.PolySubst

/-- The triangle of C76: with its cones as they are, the decomposition has few terms; the program without options ends with four. -/
example (X : Smith.Xgcd) : ∃ (N' : Ntl 2) (lam : Vec 2), N'.Ok ∧ FewTerms N' (fun C => C.vertex) 1 (fun l k => .ok ([l], k)) exNormal ∧
    triangulateAndResidue N' X .dual (fun C => C.vertex) 1 2 exNormal 1 (fun _ l k => if l.length = 2 then .ok ([l], k) else .error .abort) (fun _ => lam) = .ok 4 := by
  obtain ⟨N', hN, hR⟩ := shortestRow_satisfiable 2
  have hlen : ∀ c ∈ exNormal, c.2.length = 2 := by decide +kernel
  have hfew : ∀ tri : List (Vec 2) → ℕ → Except Fail (List (List (Vec 2)) × ℕ), (∀ c ∈ exNormal, ∀ k, tri c.2 k = .ok ([c.2], k)) →
      FewTerms N' (fun C => C.vertex) 1 tri exNormal := by
    intro tri htri Ts D hf hD
    have hTs : Ts = exNormal.map fun c => (c.1, [listMat c.2]) := by
      have : ∀ (l : List ((Fin 2 → ℚ) × List (Vec 2))) Ts, (∀ c ∈ l, ∀ k, tri c.2 k = .ok ([c.2], k)) → List.Forall₂ (Parts tri) l Ts →
          Ts = l.map fun c => (c.1, [listMat c.2]) := by
        intro l Ts hl hf
        induction hf with
        | nil => rfl
        | @cons c t l Ts hp _ ih =>
          obtain ⟨h1, k, parts, k', h2, -, h3⟩ := hp
          rw [hl c List.mem_cons_self k] at h2
          cases h2
          rw [List.map_cons, ih fun c hc => hl c (List.mem_cons_of_mem _ hc), ← h1]
          congr 1
          exact Prod.ext rfl h3
      exact this _ _ htri hf
    subst hTs
    have h2 := terms_le N' hN .dual (fun C => C.vertex) 1 le_rfl (by decide) _ D hD
    have h3 := c71_barvinok N' hN hR 1 le_rfl .dual (fun C => C.vertex) _ D hD (fun _ => 4) (by decide +kernel)
    refine h2.trans ?_
    refine (Nat.mul_le_mul_right _ h3).trans ?_
    decide +kernel
  have hok : TriangulationOk fun (l : List (Vec 2)) (k : ℕ) => if l.length = 2 then Except.ok ([l], k) else Except.error Fail.abort := by
    intro l k parts k' hs h
    dsimp only at h
    split at h
    · cases h
      exact Subdivides.single l hs
    · cases h
  obtain ⟨D, hD, h⟩ := c76_poly_total N' hN (shortVectors_shortestRow N' hN hR) X (fun C => C.vertex) 1 le_rfl (by decide) 2 (by norm_num)
    Triangle.a Triangle.b Triangle.S Triangle.lattice exNormal (by
      have : exNormal.map (·.1) = Triangle.cones.map (·.1) := by decide +kernel
      rw [this]; exact Triangle.vertices) exNormal_rays (fun _ l k => if l.length = 2 then .ok ([l], k) else .error .abort) (fun _ => hok) 0
    (fun _ _ => hfew _ fun c hc k => by rw [if_pos (hlen c hc)]) (by
      intro t _ c hc k
      refine ⟨[c.2], k, by rw [if_pos (hlen c hc)], ?_⟩
      intro p hp
      rw [List.mem_singleton.1 hp]
      exact hlen c hc)
  obtain ⟨lam, hlam⟩ := hD 0 le_rfl
  exact ⟨N', lam, hN, hfew _ fun c hc k => rfl, h (fun _ => lam) hlam 1 (by norm_num)⟩

end Verif.Regular
