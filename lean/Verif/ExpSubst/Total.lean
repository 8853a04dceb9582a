import Verif.ExpSubst.Props
import Mathlib.Algebra.Polynomial.Roots

/-!
# Which vectors make the count succeed

The cones delivered by the decomposition do not depend on the vector; the run with a vector either ends normally with all of
them, or is abandoned because the vector is orthogonal to a ray of one of them.
-/

namespace Verif.ExpSubst

open Verif.Barvinok Verif.Barvinok.Spec

variable {n m : ℕ}

/-- The run `R` with the consumer `q` compared with the run `R0` in which everything is accepted. -/
def Follows (q : Cone n → Bool) (out : List (Cone n)) (R0 R : Outcome n) : Prop :=
  ∀ out' md', R0 = .done true out' md' → ∃ new, out' = out ++ new ∧ ((∀ D ∈ new, q D = true) → R = .done true out' md') ∧
    ((∃ D ∈ new, q D = false) → ∃ o m, R = .done false o m)

theorem follows_refl (q : Cone n → Bool) (out : List (Cone n)) (md : ℕ) : Follows q out (.done true out md) (.done true out md) := by
  intro out' md' h
  cases h
  exact ⟨[], by simp, fun _ => rfl, by simp⟩

/-- Sequential composition: continue only after return value 1. -/
def andThen (R : Outcome n) (K : List (Cone n) → ℕ → Outcome n) : Outcome n :=
  match R with
  | .done true out md => K out md
  | r => r

theorem follows_andThen (q : Cone n → Bool) (out : List (Cone n)) (R0 R : Outcome n) (K0 K : List (Cone n) → ℕ → Outcome n)
    (h : Follows q out R0 R) (hK : ∀ o md, Follows q o (K0 o md) (K o md)) : Follows q out (andThen R0 K0) (andThen R K) := by
  intro out' md' e
  unfold andThen at e
  split at e
  · rename_i o md
    obtain ⟨new1, rfl, a1, b1⟩ := h _ _ rfl
    obtain ⟨new2, rfl, a2, b2⟩ := hK _ _ _ _ e
    refine ⟨new1 ++ new2, by simp, fun hall => ?_, ?_⟩
    · rw [a1 fun D hD => hall D (List.mem_append_left _ hD)]
      exact a2 fun D hD => hall D (List.mem_append_right _ hD)
    · rintro ⟨D, hD, hq⟩
      by_cases h1 : ∀ D ∈ new1, q D = true
      · rw [a1 h1]
        rcases List.mem_append.1 hD with hD | hD
        · rw [h1 D hD] at hq; cases hq
        · exact b2 ⟨D, hD, hq⟩
      · push Not at h1
        obtain ⟨D', hD', hq'⟩ := h1
        obtain ⟨o, md2, e2⟩ := b1 ⟨D', hD', by simpa using hq'⟩
        rw [e2]
        exact ⟨o, md2, rfl⟩
  · rename_i hne
    exact absurd e (hne _ _)

variable [NeZero n]

theorem loop_follows (N : Ntl n) (mode : Mode) (maxDet : ℤ) (q : Cone n → Bool) (D : ℕ) (ch : Fin n → Option (Cone n))
    (hD : ∀ j c, ch j = some c → c.determinant.natAbs < D)
    (hch : ∀ j c, ch j = some c → ∀ depth out md, Follows q out (dfs ⟨N, mode, maxDet, fun _ _ => true⟩ c depth out md)
      (dfs ⟨N, mode, maxDet, fun _ C => q C⟩ c depth out md)) :
    ∀ (js : List (Fin n)) (depth : ℕ) (out : List (Cone n)) (md : ℕ),
      Follows q out (loop ⟨N, mode, maxDet, fun _ _ => true⟩ D ch hD js depth out md)
        (loop ⟨N, mode, maxDet, fun _ C => q C⟩ D ch hD js depth out md) := by
  intro js
  induction js with
  | nil => intro depth out md; rw [loop, loop]; exact follows_refl q out md
  | cons j js ih =>
    intro depth out md
    rw [loop, loop]
    split
    · intro _ _ h; cases h
    · rename_i c hc
      have := follows_andThen q out _ _ _ _ (hch j c hc depth out md) (fun o md => ih depth o md)
      unfold andThen at this
      exact this

theorem dfs_follows (N : Ntl n) (mode : Mode) (maxDet : ℤ) (q : Cone n → Bool) : ∀ (D : ℕ) (C : Cone n), C.determinant.natAbs < D →
    ∀ depth out md, Follows q out (dfs ⟨N, mode, maxDet, fun _ _ => true⟩ C depth out md)
      (dfs ⟨N, mode, maxDet, fun _ C => q C⟩ C depth out md) := by
  intro D
  induction D with
  | zero => intro C h; omega
  | succ D ih =>
    intro C hC depth out md
    rw [dfs, dfs]
    generalize (if depth > md then depth else md) = md'
    show Follows q out (if criterion mode C = 0 then _ else _) (if criterion mode C = 0 then _ else _)
    by_cases g1 : criterion mode C = 0
    · rw [if_pos g1, if_pos g1]; exact follows_refl q out md'
    rw [if_neg g1, if_neg g1]
    by_cases g2 : mode = .primal ∧ ¬ isConeIrrational C
    · show Follows q out (if mode = .primal ∧ ¬ isConeIrrational C then _ else _) _
      rw [if_pos g2]
      intro _ _ h; cases h
    show Follows q out (if mode = .primal ∧ ¬ isConeIrrational C then _ else _) (if mode = .primal ∧ ¬ isConeIrrational C then _ else _)
    rw [if_neg g2, if_neg g2]
    by_cases g3 : maxDet = 0 ∨ criterion mode C ≤ maxDet
    · show Follows q out (if maxDet = 0 ∨ criterion mode C ≤ maxDet then _ else _) (if maxDet = 0 ∨ criterion mode C ≤ maxDet then _ else _)
      rw [if_pos g3, if_pos g3]
      unfold deliver
      cases mode with
      | dual =>
        simp only
        split
        · intro _ _ h; cases h
        · rename_i D' _
          intro o' m' h
          cases h
          refine ⟨[D'], rfl, fun h => ?_, ?_⟩
          · rw [h D' (by simp)]
          · rintro ⟨D'', h1, h2⟩
            rw [List.mem_singleton] at h1
            subst h1
            rw [h2]
            exact ⟨_, _, rfl⟩
      | primal =>
        intro o' m' h
        cases h
        refine ⟨[C], rfl, fun h => ?_, ?_⟩
        · simp only
          rw [h C (by simp)]
        · rintro ⟨D'', h1, h2⟩
          rw [List.mem_singleton] at h1
          subst h1
          simp only
          rw [h2]
          exact ⟨_, _, rfl⟩
    · show Follows q out (if maxDet = 0 ∨ criterion mode C ≤ maxDet then _ else _) (if maxDet = 0 ∨ criterion mode C ≤ maxDet then _ else _)
      rw [if_neg g3, if_neg g3]
      split
      · intro _ _ h; cases h
      rename_i Z ch hs
      by_cases g4 : mode = .primal ∧ ¬ ∀ i, ∀ c ∈ ch i, isConeIrrational c
      · show Follows q out (if mode = .primal ∧ ¬ ∀ i, ∀ c ∈ ch i, isConeIrrational c then _ else _) _
        rw [if_pos g4]
        intro _ _ h; cases h
      show Follows q out (if mode = .primal ∧ ¬ ∀ i, ∀ c ∈ ch i, isConeIrrational c then _ else _) _
      rw [if_neg g4]
      split
      · rename_i hs'
        exact absurd (hs.symm.trans hs') (by simp)
      · rename_i Z' ch' hs'
        have he : (some (Z, ch) : Option (Vec n × (Fin n → Option (Cone n)))) = some (Z', ch') := hs.symm.trans hs'
        cases he
        show Follows q out _ (if mode = .primal ∧ ¬ ∀ i, ∀ c ∈ ch i, isConeIrrational c then _ else _)
        rw [if_neg g4]
        apply loop_follows
        intro j c hc
        exact ih c (by have := step_decreases hs j c hc; omega)

theorem single_follows (N : Ntl n) (mode : Mode) (maxDet : ℤ) (q : Cone n → Bool) (v : Variant) (irr : Cone n → Fin n → ℚ) (B : Mat n)
    (vertex : Fin n → ℚ) (out : List (Cone n)) (md : ℕ) :
    Follows q out (barvinokSingle ⟨N, mode, maxDet, fun _ _ => true⟩ v irr B vertex out md)
      (barvinokSingle ⟨N, mode, maxDet, fun _ C => q C⟩ v irr B vertex out md) := by
  unfold barvinokSingle
  split
  · intro _ _ h; cases h
  · cases v with
    | dual =>
      simp only
      split
      · intro _ _ h; cases h
      · exact dfs_follows N mode maxDet q _ _ (Nat.lt_succ_self _) _ _ _
    | irrationalAllPrimal =>
      simp only
      split
      · intro _ _ h; cases h
      · exact dfs_follows N mode maxDet q _ _ (Nat.lt_succ_self _) _ _ _
    | irrationalPrimal =>
      simp only
      split
      · intro _ _ h; cases h
      · exact dfs_follows N mode maxDet q _ _ (Nat.lt_succ_self _) _ _ _

theorem decomposition_follows (N : Ntl n) (mode : Mode) (maxDet : ℤ) (q : Cone n → Bool) (v : Variant) (irr : Cone n → Fin n → ℚ)
    (vertex : Fin n → ℚ) (T : List (Mat n)) : ∀ (out : List (Cone n)) (md : ℕ),
    Follows q out (barvinokDecompositionSingle ⟨N, mode, maxDet, fun _ _ => true⟩ v irr vertex T out md)
      (barvinokDecompositionSingle ⟨N, mode, maxDet, fun _ C => q C⟩ v irr vertex T out md) := by
  induction T with
  | nil => intro out md; exact follows_refl q out md
  | cons B T ih =>
    intro out md
    have := follows_andThen q out _ _ _ _ (single_follows N mode maxDet q v irr B vertex out md) (fun o md => ih o md)
    unfold andThen at this
    unfold barvinokDecompositionSingle
    exact this

theorem list_follows (N : Ntl n) (mode : Mode) (maxDet : ℤ) (q : Cone n → Bool) (v : Variant) (irr : Cone n → Fin n → ℚ)
    (cones : List ((Fin n → ℚ) × List (Mat n))) : ∀ (out : List (Cone n)) (md : ℕ),
    Follows q out (decompositionList ⟨N, mode, maxDet, fun _ _ => true⟩ v irr cones out md)
      (decompositionList ⟨N, mode, maxDet, fun _ C => q C⟩ v irr cones out md) := by
  induction cones with
  | nil => intro out md; exact follows_refl q out md
  | cons c Cs ih =>
    intro out md
    obtain ⟨vertex, T⟩ := c
    have := follows_andThen q out _ _ _ _ (decomposition_follows N mode maxDet q v irr vertex T out md) (fun o md => ih o md)
    unfold andThen at this
    unfold decompositionList
    exact this

/-- The decomposition without a consumer that can reject: `barvinokDecomposition_List` with a parameter set that collects the
cones (`Collecting_Single_Cone_Parameters`, dec.cpp 42–60). -/
def delivered (N : Ntl n) (v : Variant) (irr : Cone n → Fin n → ℚ) (maxDet : ℤ) (cones : List ((Fin n → ℚ) × List (Mat n))) :
    Option (List (Cone n)) :=
  match decompositionList ⟨N, v.mode, maxDet, fun _ _ => true⟩ v irr cones [] 0 with
  | .done true out _ => some out
  | _ => none

omit [NeZero n] in
theorem accept_iff (X : Smith.Xgcd) (lam : Vec (m + 1)) (fuel : ℕ) (D : Cone (m + 1)) (hD : Ready fuel D) :
    acceptExp X lam fuel D = true ↔ ∀ i, ∑ k, lam k * D.rays i k ≠ 0 := by
  constructor
  · intro h i
    exact generic_of_accept X lam fuel D h i
  · intro h
    obtain ⟨pts, -, e⟩ := residueSingle_ok X lam fuel D hD h
    unfold acceptExp
    rw [e]

omit [NeZero n] in
/-- **C42, what makes the program restart.** For every cone whatsoever, the consumer asks for a restart exactly if the vector is orthogonal to one of the
rays; every other failure (parallelepiped too large, missing facets) is not turned into a restart. -/
theorem c42_status (X : Smith.Xgcd) (lam : Vec (m + 1)) (fuel : ℕ) (D : Cone (m + 1)) :
    acceptExp X lam fuel D = false ↔ ∃ i, ∑ k, lam k * D.rays i k = 0 := by
  have hmem : (0 : ℤ) ∈ (List.ofFn fun i => D.rays i).map (inner lam) ↔ ∃ i, ∑ k, lam k * D.rays i k = 0 := by
    rw [List.mem_map]
    constructor
    · rintro ⟨r, hr, h⟩
      obtain ⟨i, rfl⟩ := List.mem_ofFn.1 hr
      exact ⟨i, h⟩
    · rintro ⟨i, h⟩
      exact ⟨_, List.mem_ofFn.2 ⟨i, rfl⟩, h⟩
  unfold acceptExp residueSingle residueWeights
  simp only [hmem]
  by_cases h : ∃ i, ∑ k, lam k * D.rays i k = 0
  · rw [if_pos h]
    simp only [h, iff_true]
    rfl
  · rw [if_neg h]
    simp only [h, iff_false, Bool.not_eq_false]
    cases Todd.evaluateTodd ((List.ofFn fun i => D.rays i).map (inner lam)) with
    | none => rfl
    | some todds =>
      unfold coneScalarProducts
      cases D.facets with
      | none => rfl
      | some F =>
        dsimp only
        cases Piped.scalarProducts X (pipedInput D F) lam fuel <;> rfl

theorem ready_dfs (P : Params (m + 1)) (hN : P.ntl.Ok) (h0 : P.maxDet ≠ 0) (hmax : P.maxDet ≤ Piped.intMax) (fuel : ℕ)
    (hfuel : P.maxDet < fuel) (C : Cone (m + 1)) (hC : Wf C) (hp : P.mode = .primal ∨ ∀ i, Prim (C.rays i)) (depth : ℕ)
    (out : List (Cone (m + 1))) (md : ℕ) {ok : Bool} {out' : List (Cone (m + 1))} {md' : ℕ}
    (h : dfs P C depth out md = .done ok out' md') : ∃ new, out' = out ++ new ∧ ∀ D ∈ new, Ready fuel D := by
  have h1 := Barvinok.dfs_inv P hN _ C rfl hC depth out md
  rw [h] at h1
  obtain ⟨new', e', hD, -, -⟩ := h1
  refine ⟨new', e', fun D hmem => ready_of_delivered P C D (hD D hmem) ?_ h0 hmax fuel hfuel⟩
  rcases hp with hp | hp
  · exact (hD D hmem).div_dvd hp
  · obtain ⟨new, e, hg⟩ := Piped.c13_applies_delivered P hN C hC hp depth out md h 0 1 one_ne_zero
    have : new' = new := by rw [e] at e'; exact (List.append_cancel_left e').symm
    subst this
    obtain ⟨F, -, hG⟩ := hg D hmem
    exact hG.dvd

theorem ready_single (P : Params (m + 1)) (hN : P.ntl.Ok) (v : Variant) (hv : P.mode = v.mode) (irr : Cone (m + 1) → Fin (m + 1) → ℚ)
    (h0 : P.maxDet ≠ 0) (hmax : P.maxDet ≤ Piped.intMax) (fuel : ℕ) (hfuel : P.maxDet < fuel) (B : Mat (m + 1)) (vertex : Fin (m + 1) → ℚ)
    (out : List (Cone (m + 1))) (md : ℕ) {ok : Bool} {out' : List (Cone (m + 1))} {md' : ℕ}
    (h : barvinokSingle P v irr B vertex out md = .done ok out' md') : ∃ new, out' = out ++ new ∧ ∀ D ∈ new, Ready fuel D := by
  unfold barvinokSingle at h
  split at h
  · cases h
  · rename_i hB
    obtain ⟨⟨D0, hd0, hwf, hc, hv0, hr⟩, D1, hd1, hwf1, hc1, hv1, hpol⟩ := Barvinok.start_wf B hB vertex
    have hprim : ∀ i, Prim (D0.rays i) := by
      intro i; rw [hr]; exact fun e he => Barvinok.matrixGCD_primitive B hB i e he
    cases v with
    | dual =>
      simp only [hd0] at h
      exact ready_dfs P hN h0 hmax fuel hfuel D0 hwf (Or.inr hprim) _ _ _ h
    | irrationalAllPrimal =>
      simp only [hd0] at h
      exact ready_dfs P hN h0 hmax fuel hfuel D0 hwf (Or.inr hprim) _ _ _ h
    | irrationalPrimal =>
      simp only [hd1] at h
      have hwf' : Wf { D1 with vertex := irr D1 } :=
        ⟨hwf1.det_eq, hwf1.det_ne, hwf1.facets, hwf1.div_pos, hwf1.div_dvd⟩
      exact ready_dfs P hN h0 hmax fuel hfuel _ hwf' (Or.inl hv) _ _ _ h

theorem ready_list (P : Params (m + 1)) (hN : P.ntl.Ok) (v : Variant) (hv : P.mode = v.mode) (irr : Cone (m + 1) → Fin (m + 1) → ℚ)
    (h0 : P.maxDet ≠ 0) (hmax : P.maxDet ≤ Piped.intMax) (fuel : ℕ) (hfuel : P.maxDet < fuel) (vertex : Fin (m + 1) → ℚ)
    (T : List (Mat (m + 1))) : ∀ (out : List (Cone (m + 1))) (md : ℕ) {out' : List (Cone (m + 1))} {md' : ℕ},
    barvinokDecompositionSingle P v irr vertex T out md = .done true out' md' →
    ∃ new, out' = out ++ new ∧ ∀ D ∈ new, Ready fuel D := by
  induction T with
  | nil => intro out md out' md' h; cases h; exact ⟨[], by simp, by simp⟩
  | cons B T ih =>
    intro out md out' md' h
    unfold barvinokDecompositionSingle at h
    split at h
    · rename_i o1 m1 h1
      obtain ⟨new1, rfl, g1⟩ := ready_single P hN v hv irr h0 hmax fuel hfuel B vertex out md h1
      obtain ⟨new2, rfl, g2⟩ := ih _ _ h
      exact ⟨new1 ++ new2, by simp, fun D hD => (List.mem_append.1 hD).elim (g1 D) (g2 D)⟩
    · rename_i r hne
      exact absurd h (hne _ _)

theorem ready_all (P : Params (m + 1)) (hN : P.ntl.Ok) (v : Variant) (hv : P.mode = v.mode) (irr : Cone (m + 1) → Fin (m + 1) → ℚ)
    (h0 : P.maxDet ≠ 0) (hmax : P.maxDet ≤ Piped.intMax) (fuel : ℕ) (hfuel : P.maxDet < fuel)
    (cones : List ((Fin (m + 1) → ℚ) × List (Mat (m + 1)))) : ∀ (out : List (Cone (m + 1))) (md : ℕ) {out' : List (Cone (m + 1))} {md' : ℕ},
    decompositionList P v irr cones out md = .done true out' md' →
    ∃ new, out' = out ++ new ∧ ∀ D ∈ new, Ready fuel D := by
  induction cones with
  | nil => intro out md out' md' h; cases h; exact ⟨[], by simp, by simp⟩
  | cons c Cs ih =>
    obtain ⟨vertex, T⟩ := c
    intro out md out' md' h
    unfold decompositionList at h
    split at h
    · rename_i o1 m1 h1
      obtain ⟨new1, rfl, g1⟩ := ready_list P hN v hv irr h0 hmax fuel hfuel vertex T out md h1
      obtain ⟨new2, rfl, g2⟩ := ih _ _ h
      exact ⟨new1 ++ new2, by simp, fun D hD => (List.mem_append.1 hD).elim (g1 D) (g2 D)⟩
    · rename_i r hne
      exact absurd h (hne _ _)

/-- The vector is not orthogonal to any ray of the cones. -/
def GenericFor (lam : Vec (m + 1)) (D : List (Cone (m + 1))) : Prop := ∀ C ∈ D, ∀ i, ∑ k, lam k * C.rays i k ≠ 0

/-- **C42, converse.** If the decomposition delivers the cones `D`, then the attempt with the vector `lam` is abandoned exactly if `lam`
is orthogonal to a ray of one of them; otherwise it ends normally with a value. -/
theorem c42_attempt (N : Ntl (m + 1)) (hN : N.Ok) (X : Smith.Xgcd) (v : Variant) (irr : Cone (m + 1) → Fin (m + 1) → ℚ)
    (maxDet : ℤ) (h0 : maxDet ≠ 0) (hmax : maxDet ≤ Piped.intMax) (fuel : ℕ) (hfuel : maxDet < fuel)
    (cones : List ((Fin (m + 1) → ℚ) × List (Mat (m + 1)))) (D : List (Cone (m + 1)))
    (hD : delivered N v irr maxDet cones = some D) (lam : Vec (m + 1)) :
    (GenericFor lam D → ∃ r, countOnce N X v irr maxDet fuel cones lam = .ok r) ∧
    (¬ GenericFor lam D → countOnce N X v irr maxDet fuel cones lam = .error .notGeneric) := by
  unfold delivered at hD
  split at hD
  · rename_i out md hrun
    cases hD
    have hready : ∀ C ∈ D, Ready fuel C := by
      obtain ⟨new, e, h⟩ := ready_all ⟨N, v.mode, maxDet, fun _ _ => true⟩ hN v rfl irr h0 hmax fuel hfuel cones [] 0 hrun
      rw [List.nil_append] at e
      subst e
      exact h
    obtain ⟨new, e, a1, a2⟩ := list_follows N v.mode maxDet (fun C => acceptExp X lam fuel C) v irr cones [] 0 _ _ hrun
    rw [List.nil_append] at e
    subst e
    constructor
    · intro hg
      have hrun' := a1 fun C hC => (accept_iff X lam fuel C (hready C hC)).2 (hg C hC)
      unfold countOnce
      simp only [hrun']
      have : ∀ (L : List (Cone (m + 1))) (r : ℚ), (∀ C ∈ L, C ∈ D) → ∃ r', residueSum X lam fuel L r = .ok r' := by
        intro L
        induction L with
        | nil => intro r _; exact ⟨r, rfl⟩
        | cons C L ih =>
          intro r hL
          have hC := hL C List.mem_cons_self
          obtain ⟨pts, -, e⟩ := residueSingle_ok X lam fuel C (hready C hC) (hg C hC)
          unfold residueSum
          rw [e]
          exact ih _ fun C' hC' => hL C' (List.mem_cons_of_mem _ hC')
      exact this D 0 fun C h => h
    · intro hg
      unfold GenericFor at hg
      push Not at hg
      obtain ⟨C, hC, i, hi⟩ := hg
      obtain ⟨o, md2, hrun'⟩ := a2 ⟨C, hC, by
        rw [← Bool.not_eq_true, accept_iff X lam fuel C (hready C hC)]
        push Not
        exact ⟨i, hi⟩⟩
      unfold countOnce
      simp only [hrun']
  · cases hD

/-- Vectors that are not orthogonal to any ray exist: the retry loop is not bound to run forever. -/
theorem c42_generic_exists (fuel : ℕ) (D : List (Cone (m + 1))) (hD : ∀ C ∈ D, Ready fuel C) : ∃ lam, GenericFor lam D := by
  classical
  let L : List (Vec (m + 1)) := D.flatMap fun C => (List.finRange (m + 1)).map C.rays
  have hL : ∀ r ∈ L, r ≠ 0 := by
    intro r hr
    obtain ⟨C, hC, h⟩ := List.mem_flatMap.1 hr
    obtain ⟨i, -, rfl⟩ := List.mem_map.1 h
    obtain ⟨F, -, hG⟩ := (hD C hC).facets
    exact row_ne_zero C.rays hG.ne i
  let P : Vec (m + 1) → Polynomial ℤ := fun r => ∑ i : Fin (m + 1), Polynomial.C (r i) * Polynomial.X ^ (i : ℕ)
  have hP : ∀ r ∈ L, P r ≠ 0 := by
    intro r hr h0
    obtain ⟨i, hi⟩ := Function.ne_iff.1 (hL r hr)
    have := congrArg (Polynomial.coeff · (i : ℕ)) h0
    simp only [P, Polynomial.finsetSum_coeff, Polynomial.coeff_C_mul, Polynomial.coeff_X_pow, Polynomial.coeff_zero] at this
    rw [Finset.sum_eq_single i] at this
    · simp at this; exact hi this
    · intro j _ hj; rw [if_neg (fun e => hj (Fin.ext e.symm)), mul_zero]
    · simp
  have hprod : (L.map P).prod ≠ 0 := by
    apply List.prod_ne_zero
    intro h0
    obtain ⟨r, hr, e⟩ := List.mem_map.1 h0
    exact hP r hr e
  obtain ⟨t, ht⟩ : ∃ t : ℤ, ((L.map P).prod).eval t ≠ 0 := by
    by_contra hne
    push Not at hne
    exact hprod (Polynomial.funext fun t => by rw [hne t, Polynomial.eval_zero])
  refine ⟨fun i => t ^ (i : ℕ), fun C hC i h0 => ht ?_⟩
  rw [Polynomial.eval_list_prod, List.map_map]
  apply List.prod_eq_zero
  refine List.mem_map.2 ⟨C.rays i, List.mem_flatMap.2 ⟨C, hC, List.mem_map.2 ⟨i, List.mem_finRange i, rfl⟩⟩, ?_⟩
  simp only [Function.comp, P, Polynomial.eval_finsetSum, Polynomial.eval_mul, Polynomial.eval_C, Polynomial.eval_pow, Polynomial.eval_X]
  rw [← h0]
  exact Finset.sum_congr rfl fun k _ => mul_comm _ _

/-- The delivered cones are non-singular, so generic vectors exist for them. -/
theorem c42_generic_vector_exists (N : Ntl (m + 1)) (hN : N.Ok) (v : Variant) (irr : Cone (m + 1) → Fin (m + 1) → ℚ)
    (maxDet : ℤ) (h0 : maxDet ≠ 0) (hmax : maxDet ≤ Piped.intMax)
    (cones : List ((Fin (m + 1) → ℚ) × List (Mat (m + 1)))) (D : List (Cone (m + 1)))
    (hD : delivered N v irr maxDet cones = some D) : ∃ lam, GenericFor lam D := by
  unfold delivered at hD
  split at hD
  · rename_i out md hrun
    cases hD
    obtain ⟨new, e, h⟩ := ready_all ⟨N, v.mode, maxDet, fun _ _ => true⟩ hN v rfl irr h0 hmax (maxDet.toNat + 1)
      (by show maxDet < _; omega) cones [] 0 hrun
    rw [List.nil_append] at e
    subst e
    exact c42_generic_exists _ _ h
  · cases hD

/-- **C42, total correctness of the retry loop.** If the decomposition delivers the cones `D` and the vector tried in round `t` is the first that is not
orthogonal to any of their rays, the loop ends in round `t` with the number of points of `S`. -/
theorem c42_total (N : Ntl (m + 1)) (hN : N.Ok) (X : Smith.Xgcd) (v : Variant) (irr : Cone (m + 1) → Fin (m + 1) → ℚ)
    (hirr : v = .irrationalPrimal → IrrOk irr)
    (maxDet : ℤ) (h0 : maxDet ≠ 0) (hmax : maxDet ≤ Piped.intMax) (fuel : ℕ) (hfuel : maxDet < fuel)
    (cones : List ((Fin (m + 1) → ℚ) × List (Mat (m + 1)))) (D : List (Cone (m + 1)))
    (hD : delivered N v irr maxDet cones = some D)
    (S : List (Vec (m + 1))) (hS : S.Nodup) (g : Vec (m + 1) → ℚ) (hg : g ∈ negligible (m + 1))
    (hind : ∀ z, (((cones.map fun c => (c.2.map fun B => inputInd v c.1 B z).sum).sum : ℤ) : ℚ) =
      (if z ∈ S then 1 else 0) + g z)
    (t : ℕ) (guesses : ℕ → Vec (m + 1)) (hbad : ∀ s < t, ¬ GenericFor (guesses s) D) (hgood : GenericFor (guesses t) D)
    (tries : ℕ) (htries : t < tries) :
    decomposeAndCount N X v irr maxDet fuel cones tries guesses = .ok (S.length : ℤ) := by
  obtain ⟨k, rfl⟩ : ∃ k, tries = t + (k + 1) := ⟨tries - t - 1, by omega⟩
  rw [c42_first_generic N X v irr maxDet fuel cones t guesses (fun s hs =>
    (c42_attempt N hN X v irr maxDet h0 hmax fuel hfuel cones D hD (guesses s)).2 (hbad s hs)) (k + 1)]
  unfold decomposeAndCount
  have e0 : (fun i => guesses (t + i)) 0 = guesses t := rfl
  rw [e0]
  obtain ⟨r, hr⟩ := (c42_attempt N hN X v irr maxDet h0 hmax fuel hfuel cones D hD (guesses t)).1 hgood
  rcases c20_count N hN X v irr hirr maxDet h0 hmax fuel hfuel cones S hS g hg hind (guesses t) with ⟨e, he, -⟩ | hok
  · rw [hr] at he; cases he
  · rw [hok]
    simp

/-! ### The decomposition itself -/

/-- The lattice reduction always finds a vector that makes all determinants smaller: the assertion of `barvinokStep`
(barvinok.cpp 341–346).  (By Minkowski's theorem such vectors exist; that NTL's LLL followed by the search finds one is
what LattE relies on.) -/
def ShortVectors (N : Ntl n) : Prop := ∀ C : Cone n, Wf C → 1 < |C.determinant| → (chooseOmega N C).isSome = true

omit [NeZero n] in
theorem det_dual_le {C : Cone n} (hC : Wf C) (h : |C.determinant| ≤ 1) : |C.dualDeterminant| ≤ 1 := by
  obtain ⟨F, -, hdual, hF⟩ := hC.facets
  have hd : |C.determinant| = 1 := by
    have : C.determinant ≠ 0 := by rw [hC.det_eq]; exact hC.det_ne
    have := Int.one_le_abs this
    omega
  have hd1 : ∀ j, C.facetDivisors j = 1 := by
    intro j
    have h1 : C.facetDivisors j ∣ 1 := by
      have := hC.div_dvd j
      rw [← dvd_abs, hd] at this
      exact this
    have h2 := hC.div_pos j
    have := Int.le_of_dvd one_pos h1
    omega
  have h1 : C.rays * F.transpose = Matrix.diagonal fun _ => (-1 : ℤ) := by
    ext i j
    rw [Matrix.mul_apply, Matrix.diagonal_apply]
    simp only [Matrix.transpose_apply]
    rw [hdual i j]
    by_cases hij : i = j
    · rw [if_pos hij, if_pos hij, hd1]
    · rw [if_neg hij, if_neg hij]
  have h2 := congrArg (fun M => |Matrix.det M|) h1
  simp only [Matrix.det_mul, Matrix.det_transpose, Matrix.det_diagonal, abs_mul, Finset.prod_const, abs_pow, abs_neg, abs_one, one_pow] at h2
  rw [← hC.det_eq, hd, one_mul] at h2
  rw [hF, h2]

theorem dfs_total (N : Ntl n) (hs : ShortVectors N) (maxDet : ℤ) (h1 : 1 ≤ maxDet) : ∀ (D : ℕ) (C : Cone n),
    C.determinant.natAbs < D → Wf C → ∀ depth out md,
    ∃ out' md', dfs ⟨N, .dual, maxDet, fun _ _ => true⟩ C depth out md = .done true out' md' := by
  intro D
  induction D with
  | zero => intro C h; omega
  | succ D ih =>
    intro C hCD hC depth out md
    rw [dfs]
    generalize (if depth > md then depth else md) = md'
    show ∃ out' md'', (if criterion .dual C = 0 then _ else _) = Outcome.done true out' md''
    by_cases g1 : criterion .dual C = 0
    · rw [if_pos g1]; exact ⟨_, _, rfl⟩
    rw [if_neg g1]
    simp only [reduceCtorEq, false_and, if_false]
    by_cases g3 : maxDet = 0 ∨ criterion .dual C ≤ maxDet
    · rw [if_pos g3]
      obtain ⟨F, hF, -⟩ := hC.facets
      unfold deliver dualizeCone
      simp only [hF]
      exact ⟨_, _, rfl⟩
    rw [if_neg g3]
    have hdet : 1 < |C.determinant| := by
      by_contra hc
      have := det_dual_le hC (not_lt.1 hc)
      apply g3
      right
      show |C.dualDeterminant| ≤ maxDet
      omega
    obtain ⟨Z, hZ⟩ := Option.isSome_iff_exists.1 (hs C hC hdet)
    have hstep : barvinokStep N C = some (Z, childrenOf C Z) := by unfold barvinokStep; rw [hZ]
    split
    · rename_i h; rw [hstep] at h; cases h
    · rename_i Z' ch' h
      have he : (some (Z, childrenOf C Z) : Option (Vec n × (Fin n → Option (Cone n)))) = some (Z', ch') := hstep.symm.trans h
      cases he
      have key : ∀ (js : List (Fin n)), (∀ j ∈ js, detsOf C.rays Z j ≠ 0) → ∀ depth out md, ∃ out' md'',
          loop ⟨N, .dual, maxDet, fun _ _ => true⟩ C.determinant.natAbs (childrenOf C Z) (step_decreases h) js depth out md =
            .done true out' md'' := by
        intro js
        induction js with
        | nil => intro _ depth out md; rw [loop]; exact ⟨_, _, rfl⟩
        | cons j js ihj =>
          intro hj depth out md
          rw [loop]
          obtain ⟨c, hc, hwf, -⟩ := childrenOf_some C Z j (hj j List.mem_cons_self)
          split
          · rename_i h'; rw [hc] at h'; cases h'
          · rename_i c' h'
            rw [hc] at h'
            cases h'
            obtain ⟨o1, m1, e1⟩ := ih c (by have := step_decreases h j c hc; omega) hwf depth out md
            rw [e1]
            exact ihj (fun j' hj' => hj j' (List.mem_cons_of_mem _ hj')) depth o1 m1
      exact key _ (fun j hj => ((order_spec (detsOf C.rays Z)).2 j).1 hj) _ _ _

/-- In dual mode the decomposition delivers cones for every list of non-singular simplices, if lattice reduction finds short vectors. -/
theorem delivered_dual (N : Ntl n) (hs : ShortVectors N) (irr : Cone n → Fin n → ℚ) (maxDet : ℤ) (h1 : 1 ≤ maxDet)
    (cones : List ((Fin n → ℚ) × List (Mat n))) (hB : ∀ c ∈ cones, ∀ B ∈ c.2, B.det ≠ 0) :
    ∃ D, delivered N .dual irr maxDet cones = some D := by
  have single : ∀ (B : Mat n) vertex out md, B.det ≠ 0 →
      ∃ out' md', barvinokSingle ⟨N, .dual, maxDet, fun _ _ => true⟩ .dual irr B vertex out md = .done true out' md' := by
    intro B vertex out md hB
    unfold barvinokSingle
    obtain ⟨⟨D0, hd0, hwf, -⟩, -⟩ := Barvinok.start_wf B hB vertex
    rw [if_neg hB]
    simp only [hd0]
    exact dfs_total N hs maxDet h1 _ D0 (Nat.lt_succ_self _) hwf _ _ _
  have list : ∀ (T : List (Mat n)) vertex, (∀ B ∈ T, B.det ≠ 0) → ∀ out md,
      ∃ out' md', barvinokDecompositionSingle ⟨N, .dual, maxDet, fun _ _ => true⟩ .dual irr vertex T out md = .done true out' md' := by
    intro T vertex
    induction T with
    | nil => intro _ out md; exact ⟨_, _, rfl⟩
    | cons B T ih =>
      intro hT out md
      obtain ⟨o1, m1, e1⟩ := single B vertex out md (hT B List.mem_cons_self)
      unfold barvinokDecompositionSingle
      rw [e1]
      exact ih (fun B' h => hT B' (List.mem_cons_of_mem _ h)) o1 m1
  have all : ∀ (cs : List ((Fin n → ℚ) × List (Mat n))), (∀ c ∈ cs, ∀ B ∈ c.2, B.det ≠ 0) → ∀ out md,
      ∃ out' md', decompositionList ⟨N, .dual, maxDet, fun _ _ => true⟩ .dual irr cs out md = .done true out' md' := by
    intro cs
    induction cs with
    | nil => intro _ out md; exact ⟨_, _, rfl⟩
    | cons c cs ih =>
      intro hcs out md
      obtain ⟨vertex, T⟩ := c
      obtain ⟨o1, m1, e1⟩ := list T vertex (hcs _ List.mem_cons_self) out md
      unfold decompositionList
      rw [e1]
      exact ih (fun c' h => hcs c' (List.mem_cons_of_mem _ h)) o1 m1
  obtain ⟨o, md, e⟩ := all cones hB [] 0
  refine ⟨o, ?_⟩
  unfold delivered
  show (match decompositionList ⟨N, .dual, maxDet, fun _ _ => true⟩ .dual irr cones [] 0 with
    | .done true out _ => some out
    | _ => none) = some o
  rw [e]

end Verif.ExpSubst
