import Verif.Options.Example
import Verif.Whole.VolumeLattice
import Verif.Whole.Ehrhart

/-!
# C97: `count --dilation=t` for a file

The dilation factor multiplies the constants of the inequalities after the elimination of the equations (preprocess.cpp:592–594) or, without equations, of all inequalities
(`dilateListVector`, preprocess.cpp:213–221).  Everything before that is done for the undilated polyhedron.
-/

namespace Verif.Options

open Verif.Barvinok Verif.Barvinok.Spec Verif.Brion Verif.Ti2 Verif.Regular Verif.Irrational Verif.Preprocess Verif.Whole
open Verif.ExpSubst (Fail GenericFor ShortVectors)

variable {n m d : ℕ}

/-! ## Model -/

/-- `dilateListVector`, preprocess.cpp:213–221: the constants are multiplied. -/
def dilateListVector (t : ℤ) (l : List (Row d)) : List (Row d) := l.map fun r => ⟨t * r.b, r.a⟩

/-- `projectOutVariables`, ReadPolyhedron.cpp:740–797, with `dilation_const = t`. -/
def projectRowsDilated (hermite : ℕ) (t : ℤ) (n : ℕ) (E I : List (Row n)) : RowStage :=
  if E = [] then .rows n (dilateListVector t I)
  else
    match preprocessProblem hermite (fun j : Fin E.length => E.get j) I 0 t with
    | .count k => .ended (.number k)
    | .notBounded => .ended .notBounded
    | .crash => .ended .undefined
    | .fuel => .ended (.failed .fuel)
    | .reduced d out _ _ _ => .rows d out

/-- `PolyhedronFromHrepMatrix`, ReadPolyhedron.cpp:665–692. -/
def matrixRowsDilated (T : Tools) (hermite : ℕ) (t : ℤ) (M : Files.LMatrix) : RowStage :=
  match splitRows ((T.canonicalize M).colsize - 1) (T.canonicalize M).linset 0 (T.canonicalize M).rows with
  | none => .ended (.failed .abort)
  | some (E, I) => projectRowsDilated hermite t ((T.canonicalize M).colsize - 1) E I

/-- `read_polyhedron_hairy`, ReadPolyhedron.cpp:640–663, up to the call of `matrixToVerticesOrCones`. -/
def fileRowsDilated (T : Tools) (hermite : ℕ) (t : ℤ) (s : List Char) : RowStage :=
  match Empty.checkEmpty T.lp (tokens s) with
  | none => .ended .undefined
  | some .exit1 => .ended .stop
  | some .undefined => .ended .undefined
  | some (.thrown text) =>
    match Files.scanInt text.toList with
    | some (k, _) => .ended (.number k)
    | none => .ended .stop
  | some .done =>
    match Files.readLatteStyleMatrix s false false false with
    | .error => .ended .stop
    | .outOfBounds => .ended .undefined
    | .ok M => matrixRowsDilated T hermite t M

/-- `count --exp --dilation=t` (ReadPolyhedron.cpp:173–175) with these options for a file in LattE format with inequalities. -/
def countDilated (T : Tools) (M : Movers) (o : Choice) (L : Limits) (t : ℤ) (s : List Char) : Ending :=
  match fileRowsDilated T L.hermite t s with
  | .ended e => e
  | .rows d l => countRows T M o L d l

/-! ## The dilation factor comes last -/

/-- The dilation of a stage. -/
def dilateStage (t : ℕ) : RowStage → RowStage
  | .ended e => .ended e
  | .rows d l => .rows d (l.map (dilateRow t))

def dilateOutcome (t : ℕ) : Preprocess.Outcome n → Preprocess.Outcome n
  | .reduced d out p B c => .reduced d (out.map (dilateRow t)) p B c
  | o => o

theorem newRow_dilated (p : Fin n → ℤ) (B : Fin d → Fin n → ℤ) (t : ℕ) (r : Row n) : newRow p B t r = dilateRow t (newRow p B 1 r) := by
  simp [newRow, dilateRow]

theorem newRows_dilated (p : Fin n → ℤ) (B : Fin d → Fin n → ℤ) {t : ℕ} (ht : 1 ≤ t) (I : List (Row n)) :
    newRows p B t I = (newRows p B 1 I).map (List.map (dilateRow t)) := by
  induction I with
  | nil => rfl
  | cons r rs ih =>
    rw [newRows, newRows, newRow_dilated, ih]
    have ha : (dilateRow t (newRow p B 1 r)).a = (newRow p B 1 r).a := rfl
    have hb : (dilateRow t (newRow p B 1 r)).b < 0 ↔ (newRow p B 1 r).b < 0 := by
      show (t : ℤ) * (newRow p B 1 r).b < 0 ↔ _
      have : (0 : ℤ) < t := by exact_mod_cast ht
      rw [mul_neg_iff]
      constructor
      · rintro (h | h)
        · exact h.2
        · omega
      · exact fun h => Or.inl ⟨this, h⟩
    simp only [ha]
    by_cases hc : ∑ j, |(newRow p B 1 r).a j| = 0 ∧ (newRow p B 1 r).b < 0
    · rw [if_pos hc, if_pos (by rw [hb]; exact hc)]
      rfl
    · rw [if_neg hc, if_neg (by rw [hb]; exact hc)]
      generalize newRows p B 1 rs = o
      cases o with
      | none => rfl
      | some out =>
        dsimp only [Option.map_some]
        split <;> rfl

theorem eliminate_dilated {t : ℕ} (ht : 1 ≤ t) (hmn : m ≤ n) (I : List (Row n)) (cost : Fin n → ℤ) (s : HState n m) :
    Preprocess.eliminate hmn I cost t s = dilateOutcome t (Preprocess.eliminate hmn I cost 1 s) := by
  unfold Preprocess.eliminate
  split
  · dsimp only
    split
    · rfl
    · rw [newRows_dilated _ _ ht]
      generalize newRows _ _ 1 _ = w
      match w with
      | none => rfl
      | some [] => rfl
      | some (_ :: _) => rfl
  · rfl

theorem preprocess_dilated {t : ℕ} (ht : 1 ≤ t) (fuel : ℕ) (eqs : Fin m → Row n) (I : List (Row n)) (cost : Fin n → ℤ) :
    preprocessProblem fuel eqs I cost t = dilateOutcome t (preprocessProblem fuel eqs I cost 1) := by
  by_cases hI : I = []
  · subst hI
    have key : ∀ o : Preprocess.Outcome n, (∀ d out p B c, o ≠ .reduced d out p B c) → dilateOutcome t o = o := by
      intro o ho
      match o with
      | .count k => rfl
      | .notBounded => rfl
      | .crash => rfl
      | .fuel => rfl
      | .reduced d out p B c => exact absurd rfl (ho d out p B c)
    have e : preprocessProblem fuel eqs [] cost t = preprocessProblem fuel eqs [] cost 1 := rfl
    rw [e, key]
    intro d out p B c
    unfold preprocessProblem
    dsimp only
    by_cases h : m = n
    · rw [dif_pos h]
      by_cases h1 : Matrix.det (fun i j => -(eqs (Fin.cast h.symm i)).a j : Matrix (Fin n) (Fin n) ℤ) = 0
      · rw [if_pos h1]; simp
      · rw [if_neg h1]
        split_ifs <;> simp
    · rw [dif_neg h]; simp
  · by_cases hmn : m ≤ n
    · rw [preprocess_cases hI hmn, preprocess_cases hI hmn]
      split
      · rfl
      · exact eliminate_dilated ht hmn I cost _
    · obtain ⟨r, rs, rfl⟩ := List.exists_cons_of_ne_nil hI
      unfold preprocessProblem
      simp only [dif_neg hmn]
      rfl

theorem fileRowsDilated_eq (T : Tools) (hermite : ℕ) {t : ℕ} (ht : 1 ≤ t) (s : List Char) : fileRowsDilated T hermite t s = dilateStage t (fileRows T hermite s) := by
  unfold fileRowsDilated fileRows
  generalize Empty.checkEmpty T.lp (tokens s) = o
  match o with
  | none => rfl
  | some .exit1 => rfl
  | some .undefined => rfl
  | some (.thrown text) =>
    dsimp only
    generalize Files.scanInt text.toList = u
    match u with
    | some (k, _) => rfl
    | none => rfl
  | some .done =>
    dsimp only
    generalize Files.readLatteStyleMatrix s false false false = u
    match u with
    | .error => rfl
    | .outOfBounds => rfl
    | .ok M =>
      dsimp only
      unfold matrixRowsDilated matrixRows
      generalize splitRows _ _ _ _ = w
      match w with
      | none => rfl
      | some (E, I) =>
        dsimp only
        unfold projectRowsDilated projectRows
        by_cases hE : E = []
        · rw [if_pos hE, if_pos hE]; rfl
        · rw [if_neg hE, if_neg hE, preprocess_dilated ht]
          generalize preprocessProblem hermite _ I 0 1 = v
          match v with
          | .count k => rfl
          | .notBounded => rfl
          | .crash => rfl
          | .fuel => rfl
          | .reduced d out _ _ _ => rfl

/-- With factor 1 this is the program of C96. -/
theorem countDilated_one (T : Tools) (M : Movers) (o : Choice) (L : Limits) (s : List Char) : countDilated T M o L 1 s = countFile T M o L s := by
  have h := fileRowsDilated_eq T L.hermite le_rfl s
  have e : ∀ st, dilateStage 1 st = st := by
    intro st
    cases st with
    | ended e => rfl
    | rows d l =>
      show RowStage.rows d _ = _
      congr 1
      conv_rhs => rw [← List.map_id l]
      refine List.map_congr_left fun r _ => ?_
      unfold dilateRow
      simp
  rw [e] at h
  unfold countDilated countFile
  rw [← h]
  rfl

/-! ## Dilated inequalities -/

theorem dilated_polyhedron {t : ℕ} (ht : 1 ≤ t) (l : List (Row d)) (y : Fin d → ℝ) :
    y ∈ Polyhedron (pairs (l.map (dilateRow t))) ↔ ∃ x ∈ Polyhedron (pairs l), y = (t : ℝ) • x := by
  have h0 : (0 : ℝ) < t := by exact_mod_cast ht
  have key : ∀ (r : Row d) (x : Fin d → ℝ), ((dilateRow t r).b : ℝ) + dot (dilateRow t r).a ((t : ℝ) • x) = t * ((r.b : ℝ) + dot r.a x) := by
    intro r x
    unfold dilateRow dot
    push_cast
    rw [mul_add, Finset.mul_sum]
    congr 1
    exact Finset.sum_congr rfl fun k _ => by simp only [Pi.smul_apply, smul_eq_mul]; ring
  have hmem : ∀ x, ((t : ℝ) • x) ∈ Polyhedron (pairs (l.map (dilateRow t))) ↔ x ∈ Polyhedron (pairs l) := by
    intro x
    show (∀ q ∈ pairs (l.map (dilateRow t)), _) ↔ ∀ q ∈ pairs l, _
    unfold pairs
    simp only [List.mem_map, forall_exists_index, and_imp, forall_apply_eq_imp_iff₂]
    refine forall₂_congr fun r _ => ?_
    rw [show ((dilateRow t r).b : ℝ) + dot (dilateRow t r).a ((t : ℝ) • x) = t * ((r.b : ℝ) + dot r.a x) from key r x]
    exact mul_nonneg_iff_of_pos_left h0
  constructor
  · intro hy
    have e : y = (t : ℝ) • ((t : ℝ)⁻¹ • y) := by rw [smul_smul, mul_inv_cancel₀ h0.ne', one_smul]
    exact ⟨_, (hmem _).1 (e ▸ hy), e⟩
  · rintro ⟨x, hx, rfl⟩
    exact (hmem x).2 hx

theorem dilated_bounded {t : ℕ} (ht : 1 ≤ t) {l : List (Row d)} (hb : Bornology.IsBounded (Polyhedron (pairs l))) :
    Bornology.IsBounded (Polyhedron (pairs (l.map (dilateRow t)))) := by
  refine (hb.smul₀ (t : ℝ)).subset fun y hy => ?_
  obtain ⟨x, hx, rfl⟩ := (dilated_polyhedron ht l y).1 hy
  exact Set.smul_mem_smul_set hx

theorem dilated_strict {t : ℕ} (ht : 1 ≤ t) {l : List (Row d)} (hst : ∃ y : Fin d → ℝ, ∀ r ∈ l, 0 < (r.b : ℝ) + dot r.a y) :
    ∃ y : Fin d → ℝ, ∀ r ∈ l.map (dilateRow t), 0 < (r.b : ℝ) + dot r.a y := by
  obtain ⟨y, hy⟩ := hst
  refine ⟨(t : ℝ) • y, fun r' hr' => ?_⟩
  obtain ⟨r, hr, rfl⟩ := List.mem_map.1 hr'
  have h0 : (0 : ℝ) < t := by exact_mod_cast ht
  have e : ((dilateRow t r).b : ℝ) + dot (dilateRow t r).a ((t : ℝ) • y) = t * ((r.b : ℝ) + dot r.a y) := by
    unfold dilateRow dot
    push_cast
    rw [mul_add, Finset.mul_sum]
    congr 1
    exact Finset.sum_congr rfl fun k _ => by simp only [Pi.smul_apply, smul_eq_mul]; ring
  rw [e]
  exact mul_pos h0 (hy r hr)

/-! ## The number -/

/-- At the end before the vertices are computed the number is right if the affine hull contains an integer point. -/
theorem ended_dilated {T : Tools} (hT : T.Ok) (P : Empty.Problem n) (h : P.Ok) (hs : Small P) (h0 : P.rows ≠ []) (hf : P.nonnegFirst = false)
    (hd : P.Directions = {0}) (hP : P.Solutions = ∅ ∨ ∃ z : Fin n → ℤ, (fun k => (z k : ℝ)) ∈ affineSpan ℝ P.Solutions) {t : ℕ} (ht : 1 ≤ t) {hermite : ℕ} {e : Ending}
    (he : fileRows T hermite (text P) = .ended e) (hright : RowStage.Right P (.ended e)) : e = .number (dilatedPoints P t).ncard := by
  obtain ⟨h1, -⟩ := hright
  rw [h1]
  congr 2
  rcases hP with hP | ⟨z, hz⟩
  · have e1 : integerPoints P = ∅ := by
      ext w
      rw [integerPoints_iff, hP]
      simp
    have e2 : dilatedPoints P t = ∅ := by
      ext w
      show (fun k => (w k : ℝ) / t) ∈ P.Solutions ↔ _
      rw [hP]
      simp
    rw [e1, e2]
  by_cases hsub : P.Solutions.Subsingleton
  · have hone : ∃ x, P.Solutions = {x} := by
      rcases hsub.eq_empty_or_singleton with h2 | h2
      · rw [h2, AffineSubspace.span_empty] at hz
        exact absurd hz (AffineSubspace.notMem_bot _ _ _)
      · exact h2
    obtain ⟨x, hx⟩ := hone
    rw [hx, AffineSubspace.mem_affineSpan_singleton] at hz
    have e1 : integerPoints P = {z} := by
      ext w
      rw [integerPoints_iff, hx, Set.mem_singleton_iff, Set.mem_singleton_iff, ← hz]
      constructor
      · intro hw
        funext k
        exact_mod_cast congrFun hw k
      · rintro rfl
        rfl
    have h0t : (t : ℝ) ≠ 0 := by
      have : (0 : ℝ) < t := by exact_mod_cast ht
      exact this.ne'
    have e2 : dilatedPoints P t = {fun k => t * z k} := by
      ext w
      show (fun k => (w k : ℝ) / t) ∈ P.Solutions ↔ _
      rw [hx, Set.mem_singleton_iff, Set.mem_singleton_iff, ← hz]
      constructor
      · intro hw
        funext k
        have hk : (w k : ℝ) / t = z k := congrFun hw k
        rw [div_eq_iff h0t] at hk
        have : ((w k : ℤ) : ℝ) = ((t * z k : ℤ) : ℝ) := by push_cast; linarith
        exact_mod_cast this
      · rintro rfl
        funext k
        push_cast
        field_simp
    rw [e1, e2, Set.ncard_singleton, Set.ncard_singleton]
  · have := fileRows_rows hT P h hs h0 hf hd hsub z hz hermite e he
    rw [h1] at this
    cases this

/-- **C97: the number reported with a dilation factor.** For every file that describes a polytope whose affine hull contains an integer point (in particular: with interior points), or an empty
set, every factor `t ≥ 1` and every combination of the options of C96: a number reported is the number of integer points of the `t`-fold dilation. -/
theorem c97_count {T : Tools} (hT : T.Ok) (hst : CanonicalizeStrict T.canonicalize) (ha : RaysOk T.rays) (hu : ∀ d t, Uses (T.triangulate d t)) {M : Movers} (hM : M.Ok)
    (o : Choice) {L : Limits} (hdet : L.maxDet ≠ 0) (hmax : L.maxDet ≤ Piped.intMax) (hfuel : L.maxDet < L.fuel) (hn : 0 < n)
    (P : Empty.Problem n) (h : P.Ok) (hs : Small P) (h0 : P.rows ≠ []) (hf : P.nonnegFirst = false) (hd : P.Directions = {0})
    (hP : P.Solutions = ∅ ∨ ∃ z : Fin n → ℤ, (fun k => (z k : ℝ)) ∈ affineSpan ℝ P.Solutions) {t : ℕ} (ht : 1 ≤ t)
    {r : ℤ} (hr : countDilated T M o L t (text P) = .number r) : r = (dilatedPoints P t).ncard := by
  have hright := (c92_rows hT hn P h hs h0 hf hd).1 L.hermite
  unfold countDilated at hr
  rw [fileRowsDilated_eq T L.hermite ht] at hr
  cases e : fileRows T L.hermite (text P) with
  | ended en =>
    rw [e] at hr hright
    rcases hright with hright | hright
    · have h1 := ended_dilated hT P h hs h0 hf hd hP ht e hright
      change en = _ at hr
      rw [h1] at hr
      exact (Ending.number.inj hr).symm
    · cases hright
      cases hr
  | rows d l =>
    rw [e] at hr hright
    rcases hright with ⟨hd0, hb, p, B, hco⟩ | hright
    · obtain ⟨d, rfl⟩ : ∃ d', d = d' + 1 := ⟨d - 1, by omega⟩
      have hne : P.Solutions.Nonempty := by
        by_contra hne
        have h2 := (Empty.c86_decides T.lp hT.lp P h (Or.inl h0) (by rw [hf]; simp)).2 (Set.not_nonempty_iff_eq_empty.1 hne) hd
        unfold fileRows at e
        rw [tokens_text P hf, h2] at e
        cases e
      have hstrict := fileRows_strict hT hst P h hs h0 hf hne L.hermite e
      rw [countRows_number hT ha hu hM o hdet hmax hfuel _ (dilated_bounded ht hb) (dilated_strict ht hstrict) hr]
      exact congrArg Nat.cast (hco.ncard t ht)
    · cases hright

/-- **C97: an answer is found.** As in C96, for every factor. -/
theorem c97_total {T : Tools} (hT : T.Ok) (hst : CanonicalizeStrict T.canonicalize) (ha : RaysOk T.rays) (hu : ∀ d t, Uses (T.triangulate d t))
    (hsr : ∀ d, (T.ntl d).ShortestRow) (htri : TriangulationTotal T) {M : Movers} (hM : M.Ok) (hE : M.Estimates)
    (o : Choice) (maxDet : ℤ) (fuel : ℕ) (h1 : 1 ≤ maxDet) (hmax : maxDet ≤ Piped.intMax) (hfuel : maxDet < fuel) (hn : 0 < n)
    (P : Empty.Problem n) (h : P.Ok) (hs : Small P) (h0 : P.rows ≠ []) (hf : P.nonnegFirst = false) (hd : P.Directions = {0})
    (hP : P.Solutions = ∅ ∨ ∃ z : Fin n → ℤ, (fun k => (z k : ℝ)) ∈ affineSpan ℝ P.Solutions) {t : ℕ} (ht : 1 ≤ t) (round : ℕ) :
    ∃ (d N : ℕ) (D : List (Cone (d + 1))), (∃ lam, GenericFor lam D) ∧ ∀ (guess : ∀ d, ℕ → Vec (d + 1)) (hermite tries : ℕ), GenericFor (guess d round) D → round < tries →
      N ≤ hermite → countDilated { T with guess := guess } M o ⟨maxDet, fuel, hermite, tries⟩ t (text P) = .number (dilatedPoints P t).ncard := by
  obtain ⟨N, st, hst', hN⟩ := (c92_rows hT hn P h hs h0 hf hd).2
  have hfile : ∀ guess hermite, fileRows { T with guess := guess } hermite (text P) = fileRows T hermite (text P) := fun guess hermite => fileRows_guess T guess hermite _
  cases st with
  | ended en =>
    refine ⟨0, N, [], ⟨0, fun C hC => by cases hC⟩, fun guess hermite tries _ _ hh => ?_⟩
    unfold countDilated
    rw [fileRowsDilated_eq _ _ ht, hfile, hN hermite hh]
    exact ended_dilated hT P h hs h0 hf hd hP ht (hN N le_rfl) hst'
  | rows d l =>
    obtain ⟨hd0, hb, p, B, hco⟩ := hst'
    obtain ⟨d, rfl⟩ : ∃ d', d = d' + 1 := ⟨d - 1, by omega⟩
    have e := hN N le_rfl
    have hne : P.Solutions.Nonempty := by
      by_contra hne
      have h2 := (Empty.c86_decides T.lp hT.lp P h (Or.inl h0) (by rw [hf]; simp)).2 (Set.not_nonempty_iff_eq_empty.1 hne) hd
      unfold fileRows at e
      rw [tokens_text P hf, h2] at e
      cases e
    have hstrict := fileRows_strict hT hst P h hs h0 hf hne N e
    obtain ⟨D, hD, hall⟩ := countRows_found hT ha hu hsr htri hM hE o maxDet fuel h1 hmax hfuel _ (dilated_bounded ht hb) (dilated_strict ht hstrict) round
    refine ⟨d, N, D, hD, fun guess hermite tries hg htr hh => ?_⟩
    unfold countDilated
    rw [fileRowsDilated_eq _ _ ht, hfile, hN hermite hh]
    show countRows _ _ _ _ (d + 1) (l.map (dilateRow t)) = _
    rw [hall guess hermite tries hg htr]
    exact congrArg (fun k : ℕ => Ending.number k) (hco.ncard t ht)

/-- **C97, violation.** If there is a solution but no integer point in the affine hull, a number reported is 0 for every factor, although dilations may have integer points. -/
theorem c97_no_integer_point_violation {T : Tools} (hT : T.Ok) (hst : CanonicalizeStrict T.canonicalize) (M : Movers) (o : Choice) (L : Limits) (hn : 0 < n)
    (P : Empty.Problem n) (h : P.Ok) (hs : Small P) (h0 : P.rows ≠ []) (hf : P.nonnegFirst = false) (hd : P.Directions = {0})
    (hne : P.Solutions.Nonempty) (hP : ∀ z : Fin n → ℤ, (fun k => (z k : ℝ)) ∉ affineSpan ℝ P.Solutions) {t : ℕ} (ht : 1 ≤ t) :
    countDilated T M o L t (text P) = .number 0 ∨ countDilated T M o L t (text P) = .failed .fuel := by
  have hright := (c92_rows hT hn P h hs h0 hf hd).1 L.hermite
  unfold countDilated
  rw [fileRowsDilated_eq T L.hermite ht]
  cases e : fileRows T L.hermite (text P) with
  | ended en =>
    rw [e] at hright
    rcases hright with hright | hright
    · left
      have e0 : integerPoints P = ∅ := by
        ext w
        rw [integerPoints_iff]
        simp only [Set.mem_empty_iff_false, iff_false]
        exact fun hw => hP w (mem_affineSpan ℝ hw)
      have h1 := hright.1
      rw [e0] at h1
      rw [h1]
      simp [dilateStage]
    · right
      cases hright
      rfl
  | rows d l =>
    exfalso
    rw [e] at hright
    rcases hright with ⟨hd0, hb, p, B, hco⟩ | hright
    · have hi := fileRows_interior hT hst P h hs h0 hf hne L.hermite e
      exact hP p (hco.toLattice.integer_point hi)
    · cases hright

/-! ## Examples -/

theorem ex_dilated : dilatedPoints exP 2 = ↑((Fintype.piFinset fun _ : Fin 3 => Finset.Icc (0 : ℤ) 4).filter fun z => z 0 + z 1 + z 2 = 4) := by
  ext z
  simp only [Finset.coe_filter, Fintype.mem_piFinset, Finset.mem_Icc, Set.mem_ofPred_eq, dilatedPoints]
  constructor
  · rintro ⟨h1, h2, h3⟩
    have e := h2 1 (by simp [exP]) (2, ![-1, -1, -1]) rfl
    have p0 := h3 0 (by simp [exP])
    have p1 := h3 1 (by simp [exP])
    have p2 := h3 2 (by simp [exP])
    simp [Fin.sum_univ_three] at e p0 p1 p2
    have q0 : 0 ≤ z 0 := by
      have : (0 : ℝ) ≤ z 0 := by linarith
      exact_mod_cast this
    have q1 : 0 ≤ z 1 := by
      have : (0 : ℝ) ≤ z 1 := by linarith
      exact_mod_cast this
    have q2 : 0 ≤ z 2 := by
      have : (0 : ℝ) ≤ z 2 := by linarith
      exact_mod_cast this
    have q : z 0 + z 1 + z 2 = 4 := by
      have : (z 0 : ℝ) + z 1 + z 2 = 4 := by linarith
      exact_mod_cast this
    refine ⟨fun k => ?_, q⟩
    fin_cases k
    · show 0 ≤ z 0 ∧ z 0 ≤ 4; omega
    · show 0 ≤ z 1 ∧ z 1 ≤ 4; omega
    · show 0 ≤ z 2 ∧ z 2 ≤ 4; omega
  · rintro ⟨h1, h2⟩
    have p : ∀ k, (0 : ℝ) ≤ z k / 2 ∧ (z k : ℝ) / 2 ≤ 2 := fun k => by
      have a : (0 : ℝ) ≤ z k := by exact_mod_cast (h1 k).1
      have b : (z k : ℝ) ≤ 4 := by exact_mod_cast (h1 k).2
      constructor <;> linarith
    have p0 := p 0
    have p1 := p 1
    have p2 := p 2
    have q : (z 0 : ℝ) + z 1 + z 2 = 4 := by exact_mod_cast h2
    refine ⟨fun r hr => ?_, fun e he r hr => ?_, fun k _ => (p k).1⟩
    · simp only [exP, List.mem_cons, List.not_mem_nil, or_false] at hr
      rcases hr with rfl | rfl <;> simp [Fin.sum_univ_three] <;> linarith
    · simp only [exP, Option.getD_some, List.mem_singleton] at he
      subst he
      simp [exP] at hr
      subst hr
      simp [Fin.sum_univ_three]
      linarith

theorem ex_hull : ∃ z : Fin 3 → ℤ, (fun k => (z k : ℝ)) ∈ affineSpan ℝ exP.Solutions := by
  have h : (![2, 0, 0] : Fin 3 → ℤ) ∈ integerPoints exP := by
    rw [ex_points]
    simp only [Finset.coe_filter, Fintype.mem_piFinset, Finset.mem_Icc, Set.mem_ofPred_eq]
    refine ⟨fun k => ?_, by simp⟩
    fin_cases k <;> simp
  exact ⟨_, mem_affineSpan ℝ ((integerPoints_iff _ _).1 h)⟩

/-- Dilated by two, the triangle of C91 has 15 integer points. -/
example {T : Tools} (hT : T.Ok) (hst : CanonicalizeStrict T.canonicalize) (ha : RaysOk T.rays) (hu : ∀ d t, Uses (T.triangulate d t)) {M : Movers} (hM : M.Ok)
    (o : Choice) {L : Limits} (hdet : L.maxDet ≠ 0) (hmax : L.maxDet ≤ Piped.intMax) (hfuel : L.maxDet < L.fuel) {r : ℤ}
    (hr : countDilated T M o L 2 "2 4 \n2 -1 -1 -1 \n5 -1 0 0 \nlinearity 1 1 \nnonnegative 3 1 2 3 \n".toList = .number r) : r = 15 := by
  rw [← ex_text] at hr
  rw [c97_count hT hst ha hu hM o hdet hmax hfuel (by decide) exP ex_ok ex_small (by simp [exP]) rfl ex_directions (Or.inr ex_hull) (t := 2) (by decide) hr, ex_dilated,
    Set.ncard_coe_finset]
  decide +kernel

/-- `2 x = 1`, `0 ≤ y ≤ 1`. -/
def exH : Empty.Problem 2 where
  rows := [(1, ![-2, 0]), (0, ![0, 1]), (1, ![0, -1])]
  linearity := some [1]
  nonnegative := none
  nonnegFirst := false

theorem exH_solutions (x : Fin 2 → ℝ) : x ∈ exH.Solutions ↔ 2 * x 0 = 1 ∧ 0 ≤ x 1 ∧ x 1 ≤ 1 := by
  constructor
  · rintro ⟨h1, h2, -⟩
    have e := h2 1 (by simp [exH]) (1, ![-2, 0]) rfl
    have a := h1 (0, ![0, 1]) (by simp [exH])
    have b := h1 (1, ![0, -1]) (by simp [exH])
    simp [Fin.sum_univ_two] at e a b
    exact ⟨by linarith, a, by linarith⟩
  · rintro ⟨h1, h2, h3⟩
    refine ⟨fun r hr => ?_, fun e he r hr => ?_, fun k hk => ?_⟩
    · simp only [exH, List.mem_cons, List.not_mem_nil, or_false] at hr
      rcases hr with rfl | rfl | rfl
      · simp [Fin.sum_univ_two]; linarith
      · simp [Fin.sum_univ_two]; linarith
      · simp [Fin.sum_univ_two]; linarith
    · simp only [exH, Option.getD_some, List.mem_singleton] at he
      subst he
      simp [exH] at hr
      subst hr
      simp [Fin.sum_univ_two]
      linarith
    · simp [exH] at hk

theorem exH_directions : exH.Directions = {0} := by
  ext x
  constructor
  · rintro ⟨h1, h2, h3⟩
    have e := h2 1 (by simp [exH]) (1, ![-2, 0]) rfl
    have a := h1 (0, ![0, 1]) (by simp [exH])
    have b := h1 (1, ![0, -1]) (by simp [exH])
    simp [Fin.sum_univ_two] at e a b
    show x = 0
    funext k
    fin_cases k
    · show x 0 = 0; linarith
    · show x 1 = 0; linarith
  · intro hx
    have : x = 0 := hx
    subst this
    exact ⟨by simp, by simp, by simp⟩

/-- The dilation by two of this polytope has three integer points, but every number reported is 0. -/
theorem c97_example_violation {T : Tools} (hT : T.Ok) (hst : CanonicalizeStrict T.canonicalize) (M : Movers) (o : Choice) (L : Limits) :
    (dilatedPoints exH 2).ncard = 3 ∧ ∀ r, countDilated T M o L 2 (text exH) = .number r → r = 0 := by
  constructor
  · have e : dilatedPoints exH 2 = ↑({![1, 0], ![1, 1], ![1, 2]} : Finset (Fin 2 → ℤ)) := by
      ext z
      show (fun k => (z k : ℝ) / (2 : ℕ)) ∈ exH.Solutions ↔ _
      rw [exH_solutions]
      simp only [Finset.coe_insert, Finset.coe_singleton, Set.mem_insert_iff, Set.mem_singleton_iff]
      constructor
      · rintro ⟨h1, h2, h3⟩
        push_cast at h1 h2 h3
        have q0 : z 0 = 1 := by
          have : (z 0 : ℝ) = 1 := by linarith
          exact_mod_cast this
        have q1 : 0 ≤ z 1 := by
          have : (0 : ℝ) ≤ z 1 := by linarith
          exact_mod_cast this
        have q2 : z 1 ≤ 2 := by
          have : (z 1 : ℝ) ≤ 2 := by linarith
          exact_mod_cast this
        have hz : ∀ c : ℤ, z 1 = c → z = ![1, c] := fun c hc => by
          funext k
          fin_cases k
          · exact q0
          · exact hc
        have : z 1 = 0 ∨ z 1 = 1 ∨ z 1 = 2 := by omega
        rcases this with hc | hc | hc
        · exact Or.inl (hz _ hc)
        · exact Or.inr (Or.inl (hz _ hc))
        · exact Or.inr (Or.inr (hz _ hc))
      · rintro (rfl | rfl | rfl) <;> norm_num
    rw [e, Set.ncard_coe_finset]
    decide +kernel
  · intro r hr
    have hP : ∀ z : Fin 2 → ℤ, (fun k => (z k : ℝ)) ∉ affineSpan ℝ exH.Solutions := by
      intro z hz
      let A : AffineSubspace ℝ (Fin 2 → ℝ) :=
        { carrier := {x | 2 * x 0 = 1}
          smul_vsub_vadd_mem' := by
            intro c p q r hp hq hr
            simp only [Set.mem_ofPred_eq] at hp hq hr ⊢
            simp only [vsub_eq_sub, vadd_eq_add, Pi.add_apply, Pi.smul_apply, Pi.sub_apply, smul_eq_mul]
            have : p 0 = q 0 := by linarith
            rw [this]
            linarith }
      have hsub : exH.Solutions ⊆ A := fun x hx => ((exH_solutions x).1 hx).1
      have h1 : (2 : ℝ) * (z 0 : ℝ) = 1 := affineSpan_le.2 hsub hz
      have h2 : 2 * z 0 = 1 := by exact_mod_cast h1
      omega
    have hne : exH.Solutions.Nonempty := ⟨![1 / 2, 0], (exH_solutions _).2 (by norm_num)⟩
    have h := c97_no_integer_point_violation hT hst M o L (by decide) exH ⟨by decide, by decide, by decide⟩ ⟨by decide, by decide, by decide⟩ (by simp [exH]) rfl exH_directions hne hP
      (t := 2) (by decide)
    rcases h with h | h
    · have h' : countDilated T M o L 2 (text exH) = .number 0 := h
      rw [h'] at hr
      exact (Ending.number.inj hr).symm
    · have h' : countDilated T M o L 2 (text exH) = .failed .fuel := h
      rw [h'] at hr
      cases hr

end Verif.Options
