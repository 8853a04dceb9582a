import Verif.ExpSubst.Total
import Verif.Barvinok.Dfs

/-!
# The cones handed to a consumer in dual mode

They have the vertex of the input, the coefficient `±1`, and their index is at most the bound; all but the last of a rejected run have been accepted.
-/

namespace Verif.Series

open Verif.Barvinok Verif.ExpSubst

variable {n : ℕ}

/-- What is known about the cones delivered after `out`. -/
def Trace (q : Cone n → Bool) (good : Cone n → Prop) (out : List (Cone n)) : Outcome n → Prop
  | .done true out' _ => ∃ new, out' = out ++ new ∧ ∀ D ∈ new, good D ∧ q D = true
  | .done false out' _ => ∃ new D, out' = out ++ new ++ [D] ∧ (∀ D ∈ new, good D ∧ q D = true) ∧ q D = false
  | .notIrrational => True
  | .abort => True

theorem trace_refl (q : Cone n → Bool) (good : Cone n → Prop) (out : List (Cone n)) (md : ℕ) : Trace q good out (.done true out md) :=
  ⟨[], by simp, by simp⟩

theorem trace_andThen (q : Cone n → Bool) (good : Cone n → Prop) (out : List (Cone n)) (R : Outcome n) (K : List (Cone n) → ℕ → Outcome n)
    (h : Trace q good out R) (hK : ∀ o md, Trace q good o (K o md)) : Trace q good out (andThen R K) := by
  unfold andThen
  split
  · rename_i o md
    obtain ⟨new1, rfl, h1⟩ := h
    have h2 := hK (out ++ new1) md
    generalize K (out ++ new1) md = R at h2
    match R with
    | .done true o _ =>
      obtain ⟨new2, rfl, h2⟩ := h2
      exact ⟨new1 ++ new2, by simp, fun D hD => (List.mem_append.1 hD).elim (h1 D) (h2 D)⟩
    | .done false o _ =>
      obtain ⟨new2, E, rfl, h2, h3⟩ := h2
      exact ⟨new1 ++ new2, E, by simp, fun D hD => (List.mem_append.1 hD).elim (h1 D) (h2 D), h3⟩
    | .notIrrational => trivial
    | .abort => trivial
  · exact h

variable [NeZero n]

theorem trace_loop (P : Params n) (q : Cone n → Bool) (good : Cone n → Prop) (D : ℕ) (ch : Fin n → Option (Cone n))
    (hD : ∀ j c, ch j = some c → c.determinant.natAbs < D)
    (hch : ∀ j c, ch j = some c → ∀ depth out md, Trace q good out (dfs P c depth out md)) :
    ∀ (js : List (Fin n)) (depth : ℕ) (out : List (Cone n)) (md : ℕ), Trace q good out (loop P D ch hD js depth out md) := by
  intro js
  induction js with
  | nil => intro depth out md; rw [loop]; exact trace_refl q good out md
  | cons j js ih =>
    intro depth out md
    rw [loop]
    split
    · trivial
    · rename_i c hc
      have := trace_andThen q good out _ _ (hch j c hc depth out md) (fun o md => ih depth o md)
      unfold andThen at this
      exact this

/-- **Specification.** Cones with a given vertex, coefficient one or minus one, and index at most `maxDet`. -/
structure Signed (v : Fin n → ℚ) (maxDet : ℤ) (C : Cone n) : Prop where
  vertex : C.vertex = v
  coefficient : C.coefficient = 1 ∨ C.coefficient = -1
  index : C.determinant ≠ 0 ∧ |C.determinant| ≤ maxDet

theorem sign_unit {a : ℤ} (h : a ≠ 0) : a.sign = 1 ∨ a.sign = -1 := by
  rcases lt_or_gt_of_ne h with h | h
  · exact Or.inr (Int.sign_eq_neg_one_of_neg h)
  · exact Or.inl (Int.sign_eq_one_of_pos h)

theorem trace_dfs (N : Ntl n) (hN : N.Ok) (maxDet : ℤ) (h0 : maxDet ≠ 0) (q : Cone n → Bool) (v : Fin n → ℚ) : ∀ (D : ℕ) (C : Cone n),
    C.determinant.natAbs < D → Wf C → C.vertex = v → (C.coefficient = 1 ∨ C.coefficient = -1) →
    ∀ depth out md, Trace q (Signed v maxDet) out (dfs ⟨N, .dual, maxDet, fun _ C => q C⟩ C depth out md) := by
  intro D
  induction D with
  | zero => intro C h; omega
  | succ D ih =>
    intro C hCD hC hv hc depth out md
    rw [dfs]
    generalize (if depth > md then depth else md) = md'
    dsimp only
    split
    · exact trace_refl q _ out md'
    rename_i hcr
    split
    · trivial
    split
    · rename_i hmax
      obtain ⟨F, hF, hdual, hdd⟩ := hC.facets
      have hz : dualizeCone C = some (swapDual C F) := by unfold dualizeCone; rw [hF]
      unfold deliver
      simp only [hz]
      have hcr' : |C.dualDeterminant| ≠ 0 := hcr
      have hgood : Signed v maxDet (swapDual C F) := by
        refine ⟨hv, hc, ?_, ?_⟩
        · show C.dualDeterminant ≠ 0
          exact fun h => hcr' (abs_eq_zero.2 h)
        · exact hmax.resolve_left h0
      cases hq : q (swapDual C F) with
      | true =>
        refine ⟨[swapDual C F], rfl, fun E hE => ?_⟩
        rw [List.mem_singleton] at hE
        subst hE
        exact ⟨hgood, hq⟩
      | false => exact ⟨[], swapDual C F, by simp, by simp, hq⟩
    · split
      · trivial
      · rename_i Z ch hstep
        split
        · trivial
        · obtain ⟨hch, -, -⟩ := barvinokStep_spec hN hC hstep
          subst hch
          have hdec := step_decreases hstep
          refine trace_loop _ q _ _ _ hdec (fun j c hcj depth out md => ?_) _ _ _ _
          have hj : detsOf C.rays Z j ≠ 0 := by
            intro hj; rw [childrenOf_none C Z j hj] at hcj; cases hcj
          obtain ⟨c', hc', hwf, -, hv', -, hco⟩ := childrenOf_some C Z j hj
          rw [hcj] at hc'
          cases hc'
          refine ih c (by have := hdec j c hcj; omega) hwf (hv'.trans hv) ?_ depth out md
          rw [hco]
          have h1 := sign_unit (a := C.determinant) (by rw [hC.det_eq]; exact hC.det_ne)
          have h2 := sign_unit hj
          rcases hc with e | e <;> rcases h1 with e1 | e1 <;> rcases h2 with e2 | e2 <;> rw [e, e1, e2] <;> simp

theorem trace_single (N : Ntl n) (hN : N.Ok) (maxDet : ℤ) (h0 : maxDet ≠ 0) (q : Cone n → Bool) (irr : Cone n → Fin n → ℚ) (B : Mat n)
    (v : Fin n → ℚ) (out : List (Cone n)) (md : ℕ) :
    Trace q (Signed v maxDet) out (barvinokSingle ⟨N, .dual, maxDet, fun _ C => q C⟩ .dual irr B v out md) := by
  unfold barvinokSingle
  split
  · trivial
  · rename_i hB
    obtain ⟨⟨D0, hd0, hwf, hc, hv0, -⟩, -⟩ := Barvinok.start_wf B hB v
    simp only [hd0]
    exact trace_dfs N hN maxDet h0 q v _ D0 (Nat.lt_succ_self _) hwf hv0 (Or.inl hc) _ _ _

theorem trace_decomposition (N : Ntl n) (hN : N.Ok) (maxDet : ℤ) (h0 : maxDet ≠ 0) (q : Cone n → Bool) (irr : Cone n → Fin n → ℚ)
    (v : Fin n → ℚ) (T : List (Mat n)) : ∀ (out : List (Cone n)) (md : ℕ),
    Trace q (Signed v maxDet) out (barvinokDecompositionSingle ⟨N, .dual, maxDet, fun _ C => q C⟩ .dual irr v T out md) := by
  induction T with
  | nil => intro out md; exact trace_refl q _ out md
  | cons B T ih =>
    intro out md
    have := trace_andThen q (Signed v maxDet) out _ _ (trace_single N hN maxDet h0 q irr B v out md) (fun o md => ih o md)
    unfold andThen at this
    unfold barvinokDecompositionSingle
    exact this

theorem trace_list (N : Ntl n) (hN : N.Ok) (maxDet : ℤ) (h0 : maxDet ≠ 0) (q : Cone n → Bool) (irr : Cone n → Fin n → ℚ)
    (cones : List ((Fin n → ℚ) × List (Mat n))) (v : Fin n → ℚ) (hv : ∀ c ∈ cones, c.1 = v) : ∀ (out : List (Cone n)) (md : ℕ),
    Trace q (Signed v maxDet) out (decompositionList ⟨N, .dual, maxDet, fun _ C => q C⟩ .dual irr cones out md) := by
  induction cones with
  | nil => intro out md; exact trace_refl q _ out md
  | cons c Cs ih =>
    intro out md
    obtain ⟨vertex, T⟩ := c
    obtain rfl : vertex = v := hv _ List.mem_cons_self
    have := trace_andThen q (Signed vertex maxDet) out _ _ (trace_decomposition N hN maxDet h0 q irr vertex T out md)
      (fun o md => ih (fun c hc => hv c (List.mem_cons_of_mem _ hc)) o md)
    unfold andThen at this
    unfold decompositionList
    exact this

end Verif.Series
