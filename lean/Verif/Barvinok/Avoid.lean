import Verif.Barvinok.Props
import Verif.Barvinok.Short

/-!
# `--avoid-singularities`: decomposition with short vectors outside a subspace (C103)

Models `code/latte/barvinok/SubspaceAvoidingDecomposition.cpp`
(`ComputeShortVectorAvoidingSubspace`), the case `SubspaceAvoidingLLL` of `barvinokStep`
(`code/latte/barvinok/barvinok.cpp` lines 348–363) and the branch of `barvinok_DFS` taken when a
step reports failure (lines 479–490).  The build with `HAVE_EXPERIMENTS` is modelled; without it the
same option ends with "not compiled in" and `exit(1)` at the first step.  The subspace consists of
the vectors with last coordinate zero.
-/

namespace Verif.Barvinok

open Spec Matrix

/-- The coordinate `dim` (1-based) of `U(i, dim)` (SubspaceAvoidingDecomposition.cpp line 64). -/
def lastIdx (n : ℕ) [NeZero n] : Fin n := ⟨n - 1, Nat.sub_lt (Nat.pos_of_ne_zero (NeZero.ne n)) one_pos⟩

/-- The search of `ComputeShortVectorAvoidingSubspace` (SubspaceAvoidingDecomposition.cpp lines
58–72): among the rows with `U(i, dim) != 0` the first of least maximum norm of `L(i)`.  State:
`least_max_norm_index` (`none` while `anyone` is false) and `least_max_norm`. -/
def avoidIndex {n : ℕ} [NeZero n] (L U : Mat n) : Option (Fin n) :=
  ((List.finRange n).foldl (fun (s : Option (Fin n) × ℤ) i =>
    if U i (lastIdx n) ≠ 0 then
      if s.1.isNone ∨ norm (L i) < s.2 then (some i, norm (L i)) else s
    else s) (none, 0)).1

/-- `ComputeShortVectorAvoidingSubspace(B, Dual)` (SubspaceAvoidingDecomposition.cpp lines 43–111):
a row of the LLL transformation.  `none` is the failing `assert(anyone)`. -/
def shortAvoiding {n : ℕ} [NeZero n] (N : Ntl n) (dual : Mat n) : Option (Vec n) :=
  let LU := N.lll (-dual.transpose)
  (avoidIndex LU.1 LU.2).map LU.2

/-- How `barvinokStep` ends for this option: a failed assertion, `return false`, or the cones. -/
inductive AStep (n : ℕ)
  | abort
  | fail
  | ok (Z : Vec n) (ch : Fin n → Option (Cone n))

/-- `barvinokStep` with `SubspaceAvoidingLLL` (barvinok.cpp lines 310–324, 348–363, 365–399). -/
def avoidStep {n : ℕ} [NeZero n] (N : Ntl n) (C : Cone n) : AStep n :=
  match createFacetMatrix C with
  | none => .abort
  | some dual =>
    match shortAvoiding N dual with
    | none => .abort
    | some Z0 =>
      let Z := checkOmega N C.rays Z0
      if decreases C.rays C.determinant Z then .ok Z (childrenOf C Z) else .fail

theorem avoidStep_ok {n : ℕ} [NeZero n] {N : Ntl n} {C : Cone n} {Z : Vec n}
    {ch : Fin n → Option (Cone n)} (h : avoidStep N C = .ok Z ch) :
    ch = childrenOf C Z ∧ decreases C.rays C.determinant Z ∧
      ∃ dual Z0, createFacetMatrix C = some dual ∧ shortAvoiding N dual = some Z0 ∧
        Z = checkOmega N C.rays Z0 := by
  unfold avoidStep at h
  split at h
  · cases h
  · rename_i dual hd
    split at h
    · cases h
    · rename_i Z0 hZ
      simp only at h
      split at h
      · rename_i hdec
        cases h
        exact ⟨rfl, hdec, dual, Z0, hd, hZ, rfl⟩
      · cases h

/-- The cones of a successful step have smaller determinants: termination. -/
theorem avoid_decreases {n : ℕ} [NeZero n] {N : Ntl n} {C : Cone n} {Z : Vec n}
    {ch : Fin n → Option (Cone n)} (h : avoidStep N C = .ok Z ch) :
    ∀ j c, ch j = some c → c.determinant.natAbs < C.determinant.natAbs := by
  obtain ⟨rfl, hdec, -⟩ := avoidStep_ok h
  intro j c hc
  unfold childrenOf at hc
  split at hc
  · cases hc
  · have := computeDetAndFacets_determinant hc
    have h2 := hdec j
    rw [this]
    rw [Int.abs_eq_natAbs, Int.abs_eq_natAbs] at h2
    exact_mod_cast h2

mutual
/-- `barvinok_DFS` (barvinok.cpp lines 441–554) with `SubspaceAvoidingLLL`.  When the step fails, a
cone of index at most 200000 is delivered as it is, and for any other cone the program gives up with
`exit(1)`; this and failed assertions are `abort`. -/
def dfsAvoid {n : ℕ} [NeZero n] (P : Params n) (C : Cone n) (depth : ℕ) (out : List (Cone n))
    (maxDepth : ℕ) : Outcome n :=
  let maxDepth := if depth > maxDepth then depth else maxDepth
  let absDet := criterion P.mode C
  if absDet = 0 then .done true out maxDepth
  else if P.mode = .primal ∧ ¬ isConeIrrational C then .notIrrational
  else if P.maxDet = 0 ∨ absDet ≤ P.maxDet then deliver P C out maxDepth
  else
    match _h : avoidStep P.ntl C with
    | .abort => .abort
    | .fail => if absDet ≤ 200000 then deliver P C out maxDepth else .abort
    | .ok Z ch =>
      if P.mode = .primal ∧ ¬ ∀ i, ∀ c ∈ ch i, isConeIrrational c then .notIrrational
      else loopAvoid P C.determinant.natAbs ch (avoid_decreases _h) (order (detsOf C.rays Z))
        (depth + 1) out maxDepth
termination_by (C.determinant.natAbs, 1, 0)
decreasing_by exact Prod.Lex.right _ (Prod.Lex.left _ _ (by decide))

/-- The do-while loop of `barvinok_DFS` (lines 534–550). -/
def loopAvoid {n : ℕ} [NeZero n] (P : Params n) (N : ℕ) (ch : Fin n → Option (Cone n))
    (hN : ∀ j c, ch j = some c → c.determinant.natAbs < N) :
    List (Fin n) → ℕ → List (Cone n) → ℕ → Outcome n
  | [], _, out, maxDepth => .done true out maxDepth
  | j :: js, depth, out, maxDepth =>
    match _h : ch j with
    | none => .abort
    | some c =>
      match dfsAvoid P c depth out maxDepth with
      | .done true out maxDepth => loopAvoid P N ch hN js depth out maxDepth
      | r => r
termination_by js => (N, 0, js.length)
decreasing_by
  · exact Prod.Lex.left _ _ (hN j c _h)
  · exact Prod.Lex.right _ (Prod.Lex.right _ (by simp))
end

/-! ## The vector -/

theorem avoidFold {n : ℕ} [NeZero n] (L U : Mat n) (l : List (Fin n)) (s : Option (Fin n) × ℤ)
    (hs : ∀ i, s.1 = some i → U i (lastIdx n) ≠ 0 ∧ s.2 = norm (L i)) :
    let r := l.foldl (fun (s : Option (Fin n) × ℤ) i =>
      if U i (lastIdx n) ≠ 0 then
        if s.1.isNone ∨ norm (L i) < s.2 then (some i, norm (L i)) else s
      else s) s
    (∀ i, r.1 = some i → U i (lastIdx n) ≠ 0 ∧ r.2 = norm (L i)) ∧
    (s.1.isSome → r.1.isSome ∧ r.2 ≤ s.2) ∧
    ∀ i ∈ l, U i (lastIdx n) ≠ 0 → r.1.isSome ∧ r.2 ≤ norm (L i) := by
  induction l generalizing s with
  | nil => exact ⟨hs, fun h => ⟨h, le_rfl⟩, fun _ h => by cases h⟩
  | cons a l ih =>
    simp only [List.foldl_cons]
    by_cases ha : U a (lastIdx n) ≠ 0
    · rw [if_pos ha]
      by_cases hb : s.1.isNone ∨ norm (L a) < s.2
      · rw [if_pos hb]
        obtain ⟨h1, h2, h3⟩ := ih (some a, norm (L a)) (by
          intro i hi; cases hi; exact ⟨ha, rfl⟩)
        refine ⟨h1, fun hsome => ⟨(h2 rfl).1, (h2 rfl).2.trans ?_⟩, fun i hi hU => ?_⟩
        · rcases hb with hb | hb
          · rw [Option.isNone_iff_eq_none] at hb; rw [hb] at hsome; cases hsome
          · exact hb.le
        · rcases List.mem_cons.mp hi with rfl | hi
          · exact h2 rfl
          · exact h3 i hi hU
      · rw [if_neg hb]
        rw [not_or, not_lt] at hb
        have hsome : s.1.isSome := by
          cases h : s.1 with
          | none => rw [h] at hb; exact absurd rfl hb.1
          | some _ => rfl
        obtain ⟨h1, h2, h3⟩ := ih s hs
        refine ⟨h1, h2, fun i hi hU => ?_⟩
        rcases List.mem_cons.mp hi with rfl | hi
        · exact ⟨(h2 hsome).1, (h2 hsome).2.trans hb.2⟩
        · exact h3 i hi hU
    · rw [if_neg ha]
      obtain ⟨h1, h2, h3⟩ := ih s hs
      refine ⟨h1, h2, fun i hi hU => ?_⟩
      rcases List.mem_cons.mp hi with rfl | hi
      · exact absurd hU ha
      · exact h3 i hi hU

/-- **C103, the vector.**  The assertion `anyone` holds; the vector is a row of the transformation
with non-zero last coordinate, and no other such row gives a reduced vector of smaller norm. -/
theorem c103_vector {n : ℕ} [NeZero n] (N : Ntl n) (hN : N.Ok) (dual : Mat n) :
    ∃ i, shortAvoiding N dual = some ((N.lll (-dual.transpose)).2 i) ∧
      (N.lll (-dual.transpose)).2 i (lastIdx n) ≠ 0 ∧
      ∀ j, (N.lll (-dual.transpose)).2 j (lastIdx n) ≠ 0 →
        norm ((N.lll (-dual.transpose)).1 i) ≤ norm ((N.lll (-dual.transpose)).1 j) := by
  set LU := N.lll (-dual.transpose) with hLU
  have hU : LU.2.det ≠ 0 := unit_det_ne (hN.lll_unimodular _)
  have hex : ∃ j, LU.2 j (lastIdx n) ≠ 0 := by
    by_contra hc
    push Not at hc
    exact hU (det_eq_zero_of_column_eq_zero (lastIdx n) hc)
  obtain ⟨j, hj⟩ := hex
  obtain ⟨h1, -, h3⟩ := avoidFold LU.1 LU.2 (List.finRange n) (none, 0) (by intro i hi; cases hi)
  obtain ⟨i, hi⟩ := Option.isSome_iff_exists.mp (h3 j (List.mem_finRange j) hj).1
  refine ⟨i, ?_, (h1 i hi).1, fun k hk => ?_⟩
  · have : avoidIndex LU.1 LU.2 = some i := hi
    show Option.map LU.2 (avoidIndex LU.1 LU.2) = _
    rw [this]
    rfl
  · rw [← (h1 i hi).2]
    exact (h3 k (List.mem_finRange k) hk).2

theorem checkOmega_last {n : ℕ} [NeZero n] (N : Ntl n) (G : Mat n) (Z : Vec n) (k : Fin n)
    (h : Z k ≠ 0) : checkOmega N G Z k ≠ 0 := by
  unfold checkOmega
  split
  · exact neg_ne_zero.mpr h
  · exact h

theorem avoidStep_spec {n : ℕ} [NeZero n] {N : Ntl n} (hN : N.Ok) {C : Cone n} (hC : Wf C)
    {Z : Vec n} {ch : Fin n → Option (Cone n)} (h : avoidStep N C = .ok Z ch) :
    ch = childrenOf C Z ∧ (∃ i, 0 < detsOf C.rays Z i * C.rays.det) ∧
      (∀ i, |detsOf C.rays Z i| < |C.determinant|) ∧ Z (lastIdx n) ≠ 0 := by
  obtain ⟨hch, hdec, dual, Z0, -, hZ0, rfl⟩ := avoidStep_ok h
  obtain ⟨i, hi, hl, -⟩ := c103_vector N hN dual
  rw [hi] at hZ0
  have hZ : Z0 (lastIdx n) ≠ 0 := by
    rw [← Option.some_injective _ hZ0]; exact hl
  refine ⟨hch, checkOmega_pos N hN _ hC.det_ne _ ?_, hdec, checkOmega_last N _ _ _ hZ⟩
  intro h0
  rw [h0] at hZ
  exact hZ rfl

/-! ## The recursion -/

/-- Every row of the matrix lies outside the subspace: its last coordinate is not zero. -/
def Avoids {n : ℕ} [NeZero n] (A : Mat n) : Prop := ∀ i, A i (lastIdx n) ≠ 0

/-- The parameters with the index bound that this variant really keeps: 200000 is always allowed. -/
def Params.lax {n : ℕ} (P : Params n) : Params n :=
  { P with maxDet := if P.maxDet = 0 then 0 else max P.maxDet 200000 }

/-- The statement carried through the recursion. -/
def AInv {n : ℕ} [NeZero n] (P : Params n) (C : Cone n) (target : (Fin n → ℝ) → ℤ)
    (out : List (Cone n)) (bound : ℕ) : Outcome n → Prop
  | .done ok out' md' => ∃ new, out' = out ++ new ∧
      (∀ D ∈ new, Delivered P.lax C D ∧ (Avoids C.rays → Avoids (workRays P.mode D))) ∧ md' ≤ bound ∧
      (ok = true → ∀ p, IsGeneric p → target p = signedSum (entries P.mode new) p)
  | .notIrrational => True
  | .abort => True

theorem lax_bound {n : ℕ} (P : Params n) (d : ℤ) (h : P.maxDet = 0 ∨ d ≤ P.maxDet ∨ d ≤ 200000) :
    P.lax.maxDet = 0 ∨ d ≤ P.lax.maxDet := by
  unfold Params.lax
  simp only
  by_cases h0 : P.maxDet = 0
  · rw [if_pos h0]; exact Or.inl rfl
  · rw [if_neg h0]
    rcases h with h | h | h
    · exact absurd h h0
    · exact Or.inr (h.trans (le_max_left _ _))
    · exact Or.inr (h.trans (le_max_right _ _))

theorem deliver_ainv {n : ℕ} [NeZero n] (P : Params n) {C : Cone n} (hC : Wf C)
    (out : List (Cone n)) (md : ℕ)
    (hirr : P.mode = .primal → isConeIrrational C) (h0 : criterion P.mode C ≠ 0)
    (hmax : P.maxDet = 0 ∨ criterion P.mode C ≤ P.maxDet ∨ criterion P.mode C ≤ 200000) :
    AInv P C (fun p => C.coefficient * ind (cone C.rays) p) out md (deliver P C out md) := by
  have h := deliver_inv P.lax hC out md hirr h0 (lax_bound P _ hmax)
  have he : deliver P.lax C out md = deliver P C out md := rfl
  rw [he] at h
  have hw : ∀ ok o m, deliver P C out md = .done ok o m → ∃ D, o = out ++ [D] ∧
      workRays P.mode D = C.rays := by
    intro ok o m hd
    obtain ⟨F, hF, -, -⟩ := hC.facets
    unfold deliver at hd
    cases hm : P.mode with
    | dual =>
      have hz : dualizeCone C = some (swapDual C F) := by unfold dualizeCone; rw [hF]
      simp only [hm, hz] at hd
      cases hd
      exact ⟨_, rfl, rfl⟩
    | primal =>
      simp only [hm] at hd
      cases hd
      exact ⟨_, rfl, rfl⟩
  generalize deliver P C out md = r at h hw
  cases r with
  | done ok o m =>
    obtain ⟨D, hD, hr⟩ := hw ok o m rfl
    obtain ⟨new, h1, h2, h3, h4⟩ := h
    have hnew : new = [D] := by
      rw [hD] at h1; exact (List.append_cancel_left h1).symm
    refine ⟨new, h1, fun D' hD' => ⟨h2 D' hD', fun ha => ?_⟩, h3, h4⟩
    rw [hnew, List.mem_singleton] at hD'
    rw [hD', hr]; exact ha
  | notIrrational => trivial
  | abort => trivial

theorem loop_ainv {n : ℕ} [NeZero n] (P : Params n) (C : Cone n) (N : ℕ)
    (ch : Fin n → Option (Cone n)) (hN : ∀ j c, ch j = some c → c.determinant.natAbs < N)
    (hrec : ∀ j c, ch j = some c → ∀ depth out md,
      AInv P C (fun p => c.coefficient * ind (cone c.rays) p) out
        (max md (depth + c.determinant.natAbs - 1)) (dfsAvoid P c depth out md))
    (js : List (Fin n)) (depth : ℕ) (out : List (Cone n)) (md b : ℕ) (hb : md ≤ b)
    (hb2 : depth + (N - 1) - 1 ≤ b) :
    AInv P C (fun p => (js.map fun j => childTerm p (ch j)).sum) out b
      (loopAvoid P N ch hN js depth out md) := by
  induction js generalizing out md with
  | nil =>
    rw [loopAvoid]
    exact ⟨[], by simp, by simp, hb, fun _ p _ => by simp [entries, signedSum]⟩
  | cons j js ih =>
    rw [loopAvoid]
    split
    · trivial
    · rename_i c hc
      have h1 := hrec j c hc depth out md
      have hlt := hN j c hc
      split
      · rename_i out1 md1 hr
        rw [hr] at h1
        obtain ⟨new1, rfl, hd1, hm1, hs1⟩ := h1
        have hb' : md1 ≤ b := by
          rcases le_max_iff.mp hm1 with h | h <;> omega
        have h2 := ih (out ++ new1) md1 hb'
        generalize loopAvoid P N ch hN js depth (out ++ new1) md1 = r at h2
        cases r with
        | done ok out2 md2 =>
          obtain ⟨new2, rfl, hd2, hm2, hs2⟩ := h2
          refine ⟨new1 ++ new2, by simp, ?_, hm2, fun hok p hp => ?_⟩
          · intro D hD
            rcases List.mem_append.mp hD with h | h
            · exact hd1 D h
            · exact hd2 D h
          · have ec : childTerm p (ch j) = c.coefficient * ind (cone c.rays) p := by rw [hc]; rfl
            simp only [List.map_cons, List.sum_cons]
            have e1 := hs1 rfl p hp
            have e2 := hs2 hok p hp
            simp only at e1 e2
            rw [ec, e1, e2, ← signedSum_append]
            simp [entries]
        | notIrrational => trivial
        | abort => trivial
      · rename_i hne
        generalize hr : dfsAvoid P c depth out md = r at h1 hne
        cases r with
        | done ok out1 md1 =>
          obtain ⟨new1, rfl, hd1, hm1, hs1⟩ := h1
          cases ok with
          | true => exact absurd rfl (hne _ _)
          | false =>
            refine ⟨new1, rfl, hd1, ?_, fun h => by cases h⟩
            rcases le_max_iff.mp hm1 with h | h <;> omega
        | notIrrational => trivial
        | abort => trivial

theorem dfs_ainv {n : ℕ} [NeZero n] (P : Params n) (hP : P.ntl.Ok) (N : ℕ) :
    ∀ C : Cone n, C.determinant.natAbs = N → Wf C → ∀ depth out md,
      AInv P C (fun p => C.coefficient * ind (cone C.rays) p) out
        (max md (depth + C.determinant.natAbs - 1)) (dfsAvoid P C depth out md) := by
  induction N using Nat.strong_induction_on with
  | _ N ih =>
    intro C hCN hC depth out md
    have hpos : 1 ≤ C.determinant.natAbs := by
      have : C.determinant ≠ 0 := by rw [hC.det_eq]; exact hC.det_ne
      omega
    have hmd : (if depth > md then depth else md) ≤ max md (depth + C.determinant.natAbs - 1) := by
      split
      · exact le_max_of_le_right (by omega)
      · exact le_max_left _ _
    rw [dfsAvoid]
    split
    · rename_i h0
      exfalso
      obtain ⟨F, hF, hdual, hdd⟩ := hC.facets
      have hFd := det_transpose_mul_ne C.rays F C.facetDivisors hC.div_pos hdual
      unfold criterion at h0
      split at h0
      · rw [abs_eq_zero, hdd] at h0; exact hFd h0
      · rw [abs_eq_zero, hC.det_eq] at h0; exact hC.det_ne h0
    · rename_i h0
      split
      · trivial
      · rename_i hirr
        have hirr' : P.mode = .primal → isConeIrrational C := fun h => by
          by_contra hc; exact hirr ⟨h, hc⟩
        split
        · rename_i hmax
          have := deliver_ainv P hC out (if depth > md then depth else md) hirr' h0 (hmax.imp_right Or.inl)
          generalize deliver P C out (if depth > md then depth else md) = r at this
          cases r with
          | done ok o m =>
            obtain ⟨new, h1, h2, h3, h4⟩ := this
            exact ⟨new, h1, h2, h3.trans hmd, h4⟩
          | notIrrational => trivial
          | abort => trivial
        · split
          · trivial
          · split
            · rename_i hemg
              have := deliver_ainv P hC out (if depth > md then depth else md) hirr' h0
                (Or.inr (Or.inr hemg))
              generalize deliver P C out (if depth > md then depth else md) = r at this
              cases r with
              | done ok o m =>
                obtain ⟨new, h1, h2, h3, h4⟩ := this
                exact ⟨new, h1, h2, h3.trans hmd, h4⟩
              | notIrrational => trivial
              | abort => trivial
            · trivial
          · rename_i Z ch hstep
            split
            · trivial
            · obtain ⟨hch, hposZ, -, hlast⟩ := avoidStep_spec hP hC hstep
              subst hch
              have hdec := avoid_decreases hstep
              have hrec : ∀ j c, childrenOf C Z j = some c → ∀ depth out md,
                  AInv P C (fun p => c.coefficient * ind (cone c.rays) p) out
                    (max md (depth + c.determinant.natAbs - 1)) (dfsAvoid P c depth out md) := by
                intro j c hc depth out md
                have hj : detsOf C.rays Z j ≠ 0 := by
                  intro hj; rw [childrenOf_none C Z j hj] at hc; cases hc
                obtain ⟨c', hc', hwf, hrays, hv, -⟩ := childrenOf_some C Z j hj
                rw [hc] at hc'
                cases hc'
                have := ih c.determinant.natAbs (hCN ▸ hdec j c hc) c rfl hwf depth out md
                generalize dfsAvoid P c depth out md = r at this
                cases r with
                | done ok o m =>
                  obtain ⟨new, h1, h2, h3, h4⟩ := this
                  refine ⟨new, h1, fun D hD => ⟨(h2 D hD).1.trans_vertex hv, fun ha => (h2 D hD).2 ?_⟩,
                    h3, h4⟩
                  intro i
                  rw [hrays]
                  by_cases hij : i = j
                  · subst hij; rw [updateRow_self]; exact hlast
                  · rw [updateRow_ne hij]; exact ha i
                | notIrrational => trivial
                | abort => trivial
              have hl := loop_ainv P C C.determinant.natAbs (childrenOf C Z) hdec hrec
                (order (detsOf C.rays Z)) (depth + 1) out (if depth > md then depth else md)
                (max md (depth + C.determinant.natAbs - 1)) hmd (le_max_of_le_right (by omega))
              generalize loopAvoid P C.determinant.natAbs (childrenOf C Z) hdec
                (order (detsOf C.rays Z)) (depth + 1) out (if depth > md then depth else md) = r at hl ⊢
              cases r with
              | done ok o m =>
                obtain ⟨new, h1, h2, h3, h4⟩ := hl
                refine ⟨new, h1, h2, h3, fun hok p hp => ?_⟩
                have e := h4 hok p hp
                simp only at e ⊢
                rw [← e]
                rw [step_identity hC hposZ p (generic_off_planes _ hC.det_ne p hp) ?_]
                · obtain ⟨hnd, hmem⟩ := order_spec (detsOf C.rays Z)
                  rw [← List.sum_toFinset _ hnd]
                  symm
                  apply Finset.sum_subset (Finset.subset_univ _)
                  intro i _ hi
                  have : detsOf C.rays Z i = 0 := by
                    by_contra hc
                    exact hi (List.mem_toFinset.mpr ((hmem i).mpr hc))
                  rw [childrenOf_none C Z i this]; rfl
                · intro i c hc
                  have hj : detsOf C.rays Z i ≠ 0 := by
                    intro hj; rw [childrenOf_none C Z i hj] at hc; cases hc
                  obtain ⟨c', hc', hwf, -⟩ := childrenOf_some C Z i hj
                  rw [hc] at hc'
                  cases hc'
                  exact generic_off_planes _ hwf.det_ne p hp
              | notIrrational => trivial
              | abort => trivial

/-! ## The properties -/

/-- **C103, the cones.**  Whenever the recursion returns, it has kept its index bound up to the
emergency index 200000, recorded determinants, vertices and facet normals are right, and if no ray
of the cone given to the recursion lies in the subspace, then no ray of any cone it produced does
(in dual mode: no facet normal of a cone handed to the consumer). -/
theorem c103_avoids {n : ℕ} [NeZero n] (P : Params n) (hP : P.ntl.Ok) (C : Cone n) (hC : Wf C)
    (depth : ℕ) (out : List (Cone n)) (md : ℕ) {ok : Bool} {out' : List (Cone n)} {md' : ℕ}
    (h : dfsAvoid P C depth out md = .done ok out' md') :
    md' ≤ max md (depth + C.determinant.natAbs - 1) ∧ ∃ new, out' = out ++ new ∧ ∀ D ∈ new,
      D.determinant = D.rays.det ∧ D.determinant ≠ 0 ∧ D.vertex = C.vertex ∧
      (P.maxDet ≠ 0 → |D.determinant| ≤ max P.maxDet 200000) ∧
      (∃ F, D.facets = some F ∧ (∀ j, 0 < D.facetDivisors j) ∧
        ∀ i j, ∑ k, D.rays i k * F j k = if i = j then -D.facetDivisors j else 0) ∧
      ((∀ i, C.rays i (lastIdx n) ≠ 0) →
        match P.mode with
        | .primal => ∀ i, D.rays i (lastIdx n) ≠ 0
        | .dual => ∃ F, D.facets = some F ∧ ∀ i, F i (lastIdx n) ≠ 0) := by
  have := dfs_ainv P hP _ C rfl hC depth out md
  rw [h] at this
  obtain ⟨new, h1, h2, h3, -⟩ := this
  refine ⟨h3, new, h1, fun D hD => ?_⟩
  obtain ⟨hd, ha⟩ := h2 D hD
  obtain ⟨F, hF, -, -, hf⟩ := hd.facets
  refine ⟨hd.det_eq, hd.det_ne, hd.vertex, fun h0 => ?_, ⟨F, hF, hd.div_pos, hf⟩, fun hc => ?_⟩
  · have := hd.index
    unfold Params.lax at this
    simp only [if_neg h0] at this
    rcases this with h4 | h4
    · have : (200000 : ℤ) ≤ max P.maxDet 200000 := le_max_right _ _
      omega
    · exact h4
  · have hw := ha hc
    unfold workRays at hw
    cases hm : P.mode with
    | primal => simp only [hm] at hw; exact hw
    | dual =>
      simp only [hm, hF, Option.getD_some] at hw
      exact ⟨F, hF, hw⟩

/-- **C103, exactness.**  When the recursion returns 1, the signed indicators of the cones it
delivered add up to the indicator of the given cone, at every point on no facet hyperplane of the
given cone or of a delivered cone (primal mode; in dual mode the same holds of the dual cones). -/
theorem c103_exact {n : ℕ} [NeZero n] (P : Params n) (hP : P.ntl.Ok) (C : Cone n) (hC : Wf C)
    (depth : ℕ) (out : List (Cone n)) (md : ℕ) {out' : List (Cone n)} {md' : ℕ}
    (h : dfsAvoid P C depth out md = .done true out' md') :
    ∃ new, out' = out ++ new ∧
      ∀ p, ¬ OnFacetPlane C.rays p → (∀ D ∈ new, ¬ OnFacetPlane (workRays P.mode D) p) →
        C.coefficient * ind (cone C.rays) p =
          (new.map fun D => D.coefficient * ind (cone (workRays P.mode D)) p).sum := by
  have := dfs_ainv P hP _ C rfl hC depth out md
  rw [h] at this
  obtain ⟨new, h1, h2, -, h4⟩ := this
  refine ⟨new, h1, fun p hp hpn => ?_⟩
  have hext := signedSum_extend [(C.coefficient, C.rays)] (entries P.mode new)
    (by simpa using hC.det_ne)
    (by
      intro c hc
      obtain ⟨D, hD, rfl⟩ := List.mem_map.mp hc
      exact workRays_det (P := P.lax) (h2 D hD).1)
    (by
      intro q hq
      have := h4 rfl q hq
      simp only at this
      rw [← this]
      simp [signedSum])
    p (by simpa using hp)
    (by
      intro c hc
      obtain ⟨D, hD, rfl⟩ := List.mem_map.mp hc
      exact hpn D hD)
  simpa [signedSum, entries, Function.comp_def] using hext

/-- A failed step: no row of the transformation outside the subspace is short enough. -/
theorem c103_step_fails {n : ℕ} [NeZero n] (N : Ntl n) (hN : N.Ok) {C : Cone n} (hC : Wf C) :
    avoidStep N C ≠ .abort ∧
    (avoidStep N C = .fail → ∃ Z : Vec n, Z (lastIdx n) ≠ 0 ∧
      ∃ i, |C.determinant| ≤ |(C.rays.updateRow i Z).det|) := by
  obtain ⟨dual, hd⟩ := facetMatrix_some hC
  obtain ⟨i, hi, hl, -⟩ := c103_vector N hN dual
  unfold avoidStep
  simp only [hd, hi]
  split
  · exact ⟨by simp, fun h => by cases h⟩
  · rename_i hdec
    refine ⟨by simp, fun _ => ⟨_, checkOmega_last N C.rays _ _ hl, ?_⟩⟩
    unfold decreases at hdec
    push Not at hdec
    exact hdec

theorem loopAvoid_total {n : ℕ} [NeZero n] (P : Params n) (N : ℕ)
    (ch : Fin n → Option (Cone n)) (hN : ∀ j c, ch j = some c → c.determinant.natAbs < N)
    (hrec : ∀ j c, ch j = some c → ∀ depth out md, dfsAvoid P c depth out md ≠ .abort)
    (js : List (Fin n)) (hjs : ∀ j ∈ js, ch j ≠ none) (depth : ℕ) (out : List (Cone n)) (md : ℕ) :
    loopAvoid P N ch hN js depth out md ≠ .abort := by
  induction js generalizing out md with
  | nil => rw [loopAvoid]; exact fun h => by cases h
  | cons j js ih =>
    rw [loopAvoid]
    split
    · rename_i hn; exact absurd hn (hjs j List.mem_cons_self)
    · rename_i c hc
      split
      · exact ih (fun k hk => hjs k (List.mem_cons_of_mem _ hk)) _ _
      · exact hrec j c hc depth out md

/-- **C103, no giving up below the emergency index.**  In the primal modes a cone of index at most
200000 never makes the program give up, whatever LLL returns. -/
theorem c103_never_gives_up {n : ℕ} [NeZero n] (P : Params n) (hP : P.ntl.Ok)
    (hm : P.mode = .primal) (C : Cone n) (hC : Wf C) (hdet : |C.determinant| ≤ 200000)
    (depth : ℕ) (out : List (Cone n)) (md : ℕ) : dfsAvoid P C depth out md ≠ .abort := by
  obtain ⟨N, hCN⟩ : ∃ N, C.determinant.natAbs = N := ⟨_, rfl⟩
  induction N using Nat.strong_induction_on generalizing C depth out md with
  | _ N ih =>
    have hdel : ∀ m, deliver P C out m ≠ .abort := by
      intro m h
      unfold deliver at h
      rw [hm] at h
      cases h
    have hcrit : criterion P.mode C = |C.determinant| := by rw [hm]; rfl
    rw [dfsAvoid]
    split
    · exact fun h => by cases h
    · split
      · exact fun h => by cases h
      · split
        · exact hdel _
        · split
          · rename_i hab; exact absurd hab (c103_step_fails P.ntl hP hC).1
          · rw [hcrit, if_pos hdet]; exact hdel _
          · rename_i Z ch hstep
            split
            · exact fun h => by cases h
            · obtain ⟨hch, -, hlt, -⟩ := avoidStep_spec hP hC hstep
              subst hch
              have hdec := avoid_decreases hstep
              apply loopAvoid_total
              · intro j c hc depth out md
                have hj : detsOf C.rays Z j ≠ 0 := by
                  intro hj; rw [childrenOf_none C Z j hj] at hc; cases hc
                obtain ⟨c', hc', hwf, -, -, hd, -⟩ := childrenOf_some C Z j hj
                rw [hc] at hc'
                cases hc'
                refine ih c.determinant.natAbs (hCN ▸ hdec j c hc) c hwf ?_ depth out md rfl
                rw [hd]
                exact (hlt j).le.trans hdet
              · intro j hj
                have := ((order_spec (detsOf C.rays Z)).2 j).mp hj
                obtain ⟨c, hc, -⟩ := childrenOf_some C Z j this
                rw [hc]
                exact fun h => by cases h

/-! ## A concrete case -/

/-- The cone with rays (0,1), (2,1) and vertex (1/3, 1/5): both rays avoid the subspace. -/
def avCone : Cone 2 := ⟨1, ![1/3, 1/5], !![0, 1; 2, 1], -2, some !![1, -2; -1, 0], ![2, 2], -2⟩

/-- The hypotheses are met: the cone is well formed, its rays avoid the subspace, the step succeeds
with the vector (1,1), and both of its cones are unimodular. -/
theorem c103_example : Wf avCone ∧ (∀ i, avCone.rays i (lastIdx 2) ≠ 0) ∧
    |avCone.determinant| ≤ 200000 ∧
    avoidStep ntl2 avCone = .ok ![1, 1] (childrenOf avCone ![1, 1]) ∧
    detsOf avCone.rays ![1, 1] = ![-1, -1] := by
  have hd : createFacetMatrix avCone = some !![-1, 2; 1, 0] := by decide +kernel
  refine ⟨⟨by decide +kernel, by decide +kernel, ⟨_, rfl, by decide +kernel, by decide +kernel⟩,
    by decide +kernel, by decide +kernel⟩, by decide +kernel, by decide +kernel, ?_,
    by decide +kernel⟩
  have hs : shortAvoiding ntl2 !![-1, 2; 1, 0] = some ![1, 1] := by decide +kernel
  have hk : checkOmega ntl2 avCone.rays ![1, 1] = ![1, 1] := by decide +kernel
  have hdec : decreases avCone.rays avCone.determinant ![1, 1] := by decide +kernel
  unfold avoidStep
  simp only [hd, hs, hk, if_pos hdec]

end Verif.Barvinok
