import Verif.PolySubst.OfflineRun

/-!
# The coefficients of the delivered cones are `1` and `-1`

`code/latte/barvinok/barvinok.cpp` 206–582: every step multiplies the coefficient by two signs of non-zero determinants.
-/

namespace Verif.Digging

open Verif.Barvinok
open Verif.ExpSubst
open Verif.PolySubst
open Verif.Irrational

variable {n : ℕ}

/-- `1` or `-1`. -/
def IsSign (x : ℤ) : Prop := x = 1 ∨ x = -1

theorem IsSign.mul {x y : ℤ} (hx : IsSign x) (hy : IsSign y) : IsSign (x * y) := by
  rcases hx with rfl | rfl <;> rcases hy with rfl | rfl
  · exact Or.inl rfl
  · exact Or.inr rfl
  · exact Or.inr rfl
  · exact Or.inl rfl

theorem isSign_sign {x : ℤ} (h : x ≠ 0) : IsSign x.sign := by
  rcases lt_trichotomy x 0 with h1 | h1 | h1
  · exact Or.inr (Int.sign_eq_neg_one_of_neg h1)
  · exact absurd h1 h
  · exact Or.inl (Int.sign_eq_one_of_pos h1)

theorem dualize_coefficient {C D : Cone n} (h : dualizeCone C = some D) : D.coefficient = C.coefficient := by
  unfold dualizeCone at h
  split at h
  · cases h; rfl
  · split at h
    · cases h
    · rename_i C' hC'
      split at h
      · cases h
        exact (wf_computeDetAndFacets hC').2.2.1
      · cases h

theorem dfs_sign [NeZero n] (P : Params n) : ∀ (t : ℕ) (C : Cone n), C.determinant.natAbs ≤ t → Wf C → IsSign C.coefficient →
    ∀ depth out md out' md', dfs P C depth out md = .done true out' md' → ∃ new, out' = out ++ new ∧ ∀ D ∈ new, IsSign D.coefficient := by
  intro t
  induction t with
  | zero =>
    intro C ht hC
    have := hC.det_ne
    rw [← hC.det_eq] at this
    omega
  | succ t ih =>
    intro C ht hC hs depth out md out' md' h
    rw [dfs] at h
    revert h
    generalize (if depth > md then depth else md) = md1
    intro h
    split at h
    · cases h; exact ⟨[], by simp, by simp⟩
    split at h
    · cases h
    split at h
    · unfold deliver at h
      split at h
      · split at h
        · cases h
        · rename_i D hD
          injection h with _ h _
          refine ⟨[D], h.symm, fun D' hD' => ?_⟩
          rw [List.mem_singleton] at hD'
          rw [hD', dualize_coefficient hD]
          exact hs
      · injection h with _ h _
        refine ⟨[C], h.symm, fun D' hD' => ?_⟩
        rw [List.mem_singleton] at hD'
        rw [hD']
        exact hs
    split at h
    · cases h
    rename_i Z ch hstep
    split at h
    · cases h
    have hch : ch = childrenOf C Z := by
      unfold barvinokStep at hstep
      split at hstep
      · cases hstep
      · cases hstep; rfl
    have key : ∀ (js : List (Fin n)) depth out md out' md',
        loop P C.determinant.natAbs ch (step_decreases hstep) js depth out md = .done true out' md' →
        ∃ new, out' = out ++ new ∧ ∀ D ∈ new, IsSign D.coefficient := by
      intro js
      induction js with
      | nil =>
        intro depth out md out' md' h
        rw [loop] at h
        cases h
        exact ⟨[], by simp, by simp⟩
      | cons j js ihj =>
        intro depth out md out' md' h
        rw [loop] at h
        split at h
        · cases h
        rename_i c hc
        have hc' := hc
        rw [hch] at hc'
        unfold childrenOf at hc'
        split at hc'
        · cases hc'
        rename_i hdet
        obtain ⟨hwf, -, hco, -⟩ := wf_computeDetAndFacets hc'
        have hcs : IsSign c.coefficient := by
          rw [hco]
          refine IsSign.mul (IsSign.mul hs (isSign_sign ?_)) (isSign_sign hdet)
          rw [hC.det_eq]
          exact hC.det_ne
        have hlt := step_decreases hstep j c hc
        split at h
        · rename_i o1 m1 e1
          obtain ⟨new1, a1, a2⟩ := ih c (by omega) hwf hcs _ _ _ _ _ e1
          obtain ⟨new2, b1, b2⟩ := ihj _ _ _ _ _ h
          refine ⟨new1 ++ new2, by rw [b1, a1, List.append_assoc], fun D hD => ?_⟩
          rcases List.mem_append.1 hD with hD | hD
          · exact a2 D hD
          · exact b2 D hD
        · rename_i hne
          exact absurd h (hne _ _)
    exact key _ _ _ _ _ _ h

theorem single_sign [NeZero n] (P : Params n) (v : Variant) (irr : Cone n → Fin n → ℚ) (B : Mat n) (vertex : Fin n → ℚ)
    (out : List (Cone n)) (md : ℕ) (out' : List (Cone n)) (md' : ℕ) (h : barvinokSingle P v irr B vertex out md = .done true out' md') :
    ∃ new, out' = out ++ new ∧ ∀ D ∈ new, IsSign D.coefficient := by
  unfold barvinokSingle at h
  split at h
  · cases h
  rename_i hB
  cases v with
  | dual =>
    simp only at h
    split at h
    · cases h
    · rename_i D hD
      obtain ⟨hwf, -, hco, -⟩ := wf_computeDetAndFacets hD
      exact dfs_sign P _ D le_rfl hwf (by rw [hco]; exact Or.inl rfl) _ _ _ _ _ h
  | irrationalAllPrimal =>
    simp only at h
    split at h
    · cases h
    · rename_i D hD
      obtain ⟨hwf, -, hco, -⟩ := wf_computeDetAndFacets hD
      exact dfs_sign P _ D le_rfl hwf (by rw [hco]; exact Or.inl rfl) _ _ _ _ _ h
  | irrationalPrimal =>
    simp only at h
    obtain ⟨-, D0, h0, hwf, hco, -, -⟩ := start_wf B hB vertex
    rw [h0] at h
    simp only at h
    exact dfs_sign P _ _ le_rfl (wf_vertex hwf (irr D0)) (Or.inl hco) _ _ _ _ _ h

/-- **The coefficients are `1` and `-1`**, in every variant. -/
theorem delivered_sign [NeZero n] (N' : Ntl n) (v : Variant) (irr : Cone n → Fin n → ℚ) (maxDet : ℤ)
    (cones : List ((Fin n → ℚ) × List (Mat n))) (D : List (Cone n))
    (hD : delivered N' v irr maxDet cones = some D) : ∀ C ∈ D, IsSign C.coefficient := by
  have list : ∀ (T : List (Mat n)) vertex out md out' md',
      barvinokDecompositionSingle ⟨N', v.mode, maxDet, fun _ _ => true⟩ v irr vertex T out md = .done true out' md' →
      ∃ new, out' = out ++ new ∧ ∀ D ∈ new, IsSign D.coefficient := by
    intro T vertex
    induction T with
    | nil => intro out md out' md' h; unfold barvinokDecompositionSingle at h; cases h; exact ⟨[], by simp, by simp⟩
    | cons B T ih =>
      intro out md out' md' h
      unfold barvinokDecompositionSingle at h
      split at h
      · rename_i o1 m1 e1
        obtain ⟨new1, a1, a2⟩ := single_sign _ v irr B vertex _ _ _ _ e1
        obtain ⟨new2, b1, b2⟩ := ih _ _ _ _ h
        refine ⟨new1 ++ new2, by rw [b1, a1, List.append_assoc], fun D hD => ?_⟩
        rcases List.mem_append.1 hD with hD | hD
        · exact a2 D hD
        · exact b2 D hD
      · rename_i hne; exact absurd h (hne _ _)
  have all : ∀ (L : List ((Fin n → ℚ) × List (Mat n))) out md out' md',
      decompositionList ⟨N', v.mode, maxDet, fun _ _ => true⟩ v irr L out md = .done true out' md' →
      ∃ new, out' = out ++ new ∧ ∀ D ∈ new, IsSign D.coefficient := by
    intro L
    induction L with
    | nil => intro out md out' md' h; unfold decompositionList at h; cases h; exact ⟨[], by simp, by simp⟩
    | cons c L ih =>
      obtain ⟨vertex, T⟩ := c
      intro out md out' md' h
      unfold decompositionList at h
      split at h
      · rename_i o1 m1 e1
        obtain ⟨new1, a1, a2⟩ := list T vertex _ _ _ _ e1
        obtain ⟨new2, b1, b2⟩ := ih _ _ _ _ h
        refine ⟨new1 ++ new2, by rw [b1, a1, List.append_assoc], fun D hD => ?_⟩
        rcases List.mem_append.1 hD with hD | hD
        · exact a2 D hD
        · exact b2 D hD
      · rename_i hne; exact absurd h (hne _ _)
  unfold delivered at hD
  split at hD
  · rename_i out md hrun
    cases hD
    obtain ⟨new, e, h⟩ := all cones _ _ _ _ hrun
    rw [List.nil_append] at e
    rw [e]
    exact h
  · cases hD

end Verif.Digging
