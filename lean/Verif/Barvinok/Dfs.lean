import Verif.Barvinok.Generic

/-!
# The whole recursion (C17, C18)
-/

namespace Verif.Barvinok

open Spec Matrix

/-! ## The visiting order -/

theorem pickMin_fold {n : ℕ} (dets : Vec n) (l : List (Fin n)) (c : Option (Fin n)) (m : ℤ) :
    (∃ j ∈ l, dets j ≠ 0 ∧ (l.foldl (fun (s : Option (Fin n) × ℤ) j =>
      if dets j < s.2 ∧ dets j ≠ 0 then (some j, dets j) else s) (c, m)).1 = some j) ∨
    ((l.foldl (fun (s : Option (Fin n) × ℤ) j =>
      if dets j < s.2 ∧ dets j ≠ 0 then (some j, dets j) else s) (c, m)).1 = c ∧
      ∀ j ∈ l, ¬ (dets j < m ∧ dets j ≠ 0)) := by
  induction l generalizing c m with
  | nil => right; simp
  | cons a l ih =>
    simp only [List.foldl_cons]
    by_cases ha : dets a < m ∧ dets a ≠ 0
    · rw [if_pos ha]
      rcases ih (some a) (dets a) with ⟨j, hj, h1, h2⟩ | ⟨h1, _⟩
      · left; exact ⟨j, List.mem_cons_of_mem _ hj, h1, h2⟩
      · left; exact ⟨a, List.mem_cons_self .., ha.2, h1⟩
    · rw [if_neg ha]
      rcases ih c m with ⟨j, hj, h1, h2⟩ | ⟨h1, h2⟩
      · left; exact ⟨j, List.mem_cons_of_mem _ hj, h1, h2⟩
      · right
        refine ⟨h1, fun j hj => ?_⟩
        rcases List.mem_cons.mp hj with rfl | hj
        · exact ha
        · exact h2 j hj

theorem pickMin_some {n : ℕ} {dets : Vec n} {max : ℤ} {j : Fin n}
    (h : pickMin dets max = some j) : dets j ≠ 0 := by
  unfold pickMin at h
  rcases pickMin_fold dets (List.finRange n) none (max + 1) with ⟨i, _, h1, h2⟩ | ⟨h1, _⟩
  · rw [h2] at h; cases h; exact h1
  · rw [h1] at h; cases h

theorem pickMin_none {n : ℕ} {dets : Vec n} {max : ℤ} (hmax : ∀ j, dets j ≤ max)
    (h : pickMin dets max = none) (j : Fin n) : dets j = 0 := by
  unfold pickMin at h
  rcases pickMin_fold dets (List.finRange n) none (max + 1) with ⟨i, _, h1, h2⟩ | ⟨_, h2⟩
  · rw [h2] at h; cases h
  · by_contra hc
    exact h2 j (List.mem_finRange j) ⟨by linarith [hmax j], hc⟩

theorem orderAux_spec {n : ℕ} (max : ℤ) (hmax0 : 0 ≤ max) (fuel : ℕ) (dets : Vec n)
    (hmax : ∀ j, dets j ≤ max) (hf : (Finset.univ.filter fun j => dets j ≠ 0).card ≤ fuel) :
    (orderAux max fuel dets).Nodup ∧ ∀ j, j ∈ orderAux max fuel dets ↔ dets j ≠ 0 := by
  induction fuel generalizing dets with
  | zero =>
    have : (Finset.univ.filter fun j => dets j ≠ 0) = ∅ := Finset.card_eq_zero.mp (by omega)
    refine ⟨by simp [orderAux], fun j => ?_⟩
    have hj : j ∉ Finset.univ.filter fun j => dets j ≠ 0 := by rw [this]; simp
    simp only [Finset.mem_filter, Finset.mem_univ, true_and] at hj
    simp [orderAux, hj]
  | succ fuel ih =>
    unfold orderAux
    split
    · rename_i h
      exact ⟨by simp, fun j => by simp [pickMin_none hmax h j]⟩
    · rename_i i h
      have hi := pickMin_some h
      have hcard : (Finset.univ.filter fun j => Function.update dets i 0 j ≠ 0).card ≤ fuel := by
        have : (Finset.univ.filter fun j => Function.update dets i 0 j ≠ 0) =
            (Finset.univ.filter fun j => dets j ≠ 0).erase i := by
          ext j
          by_cases hj : j = i
          · subst hj; simp
          · simp [hj]
        rw [this, Finset.card_erase_of_mem (by simpa using hi)]
        omega
      obtain ⟨h1, h2⟩ := ih (Function.update dets i 0) (fun j => by
        by_cases hj : j = i
        · subst hj; simpa using hmax0
        · simpa [hj] using hmax j) hcard
      refine ⟨List.nodup_cons.mpr ⟨fun hm => ?_, h1⟩, fun j => ?_⟩
      · exact ((h2 i).mp hm) (by simp)
      · rw [List.mem_cons, h2]
        by_cases hj : j = i
        · subst hj; simp [hi]
        · simp [hj]

theorem foldl_max_spec {n : ℕ} (dets : Vec n) (l : List (Fin n)) (m : ℤ) :
    m ≤ l.foldl (fun (m : ℤ) i => if dets i > m then dets i else m) m ∧
    ∀ j ∈ l, dets j ≤ l.foldl (fun (m : ℤ) i => if dets i > m then dets i else m) m := by
  induction l generalizing m with
  | nil => simp
  | cons a l ih =>
    obtain ⟨h1, h2⟩ := ih (if dets a > m then dets a else m)
    simp only [List.foldl_cons]
    have h3 : m ≤ (if dets a > m then dets a else m) ∧
        dets a ≤ (if dets a > m then dets a else m) := by
      split
      · exact ⟨by linarith, le_rfl⟩
      · exact ⟨le_rfl, by linarith⟩
    refine ⟨h3.1.trans h1, fun j hj => ?_⟩
    rcases List.mem_cons.mp hj with rfl | hj
    · exact h3.2.trans h1
    · exact h2 j hj

/-- Every child with a non-zero determinant is visited exactly once. -/
theorem order_spec {n : ℕ} [NeZero n] (dets : Vec n) :
    (order dets).Nodup ∧ ∀ j, j ∈ order dets ↔ dets j ≠ 0 := by
  have hm : ∀ j, |dets j| ≤ maxDets fun i => |dets i| := fun j =>
    (foldl_max_spec (fun i => |dets i|) _ (-1)).2 j (List.mem_finRange j)
  have h := orderAux_spec (maxDets fun i => |dets i|) ((abs_nonneg (dets 0)).trans (hm 0)) n
    (fun i => |dets i|) hm ((Finset.card_le_univ _).trans (by simp))
  refine ⟨h.1, fun j => ?_⟩
  rw [← abs_ne_zero]
  exact h.2 j

/-! ## Invariant of the recursion -/

/-- The rays the recursion worked with: in dual mode the delivered cone has been dualized, so they
are its facet normals. -/
def workRays {n : ℕ} (mode : Mode) (D : Cone n) : Mat n :=
  match mode with
  | .primal => D.rays
  | .dual => D.facets.getD 0

/-- What is guaranteed of every delivered cone: its determinants are right, non-zero, and within
the bound; rays and facet normals are dual to each other with the recorded divisors; the vertex is
the vertex of the input cone. -/
structure Delivered {n : ℕ} (P : Params n) (C D : Cone n) : Prop where
  vertex : D.vertex = C.vertex
  det_eq : D.determinant = D.rays.det
  det_ne : D.determinant ≠ 0
  index : P.maxDet = 0 ∨ |D.determinant| ≤ P.maxDet
  facets : ∃ F, D.facets = some F ∧ D.dualDeterminant = F.det ∧ F.det ≠ 0 ∧
    ∀ i j, ∑ k, D.rays i k * F j k = if i = j then -D.facetDivisors j else 0
  div_pos : ∀ j, 0 < D.facetDivisors j
  irrational : P.mode = .primal → isConeIrrational D
  div_dvd : P.mode = .primal → ∀ j, D.facetDivisors j ∣ D.determinant

theorem workRays_det {n : ℕ} {P : Params n} {C D : Cone n} (h : Delivered P C D) :
    (workRays P.mode D).det ≠ 0 := by
  unfold workRays
  cases P.mode
  · obtain ⟨F, hF, -, hd, -⟩ := h.facets
    simpa [hF] using hd
  · simp only
    rw [← h.det_eq]
    exact h.det_ne

/-- The delivered cones as (coefficient, rays). -/
def entries {n : ℕ} (mode : Mode) (L : List (Cone n)) : List (ℤ × Mat n) :=
  L.map fun D => (D.coefficient, workRays mode D)

theorem signedSum_append {n : ℕ} (L M : List (ℤ × Mat n)) (p : Fin n → ℝ) :
    signedSum (L ++ M) p = signedSum L p + signedSum M p := by
  simp [signedSum]

/-- The statement carried through the recursion. `target p` is what the newly delivered cones have
to add up to. -/
def Inv {n : ℕ} (P : Params n) (C : Cone n) (target : (Fin n → ℝ) → ℤ) (out : List (Cone n))
    (bound : ℕ) : Outcome n → Prop
  | .done ok out' md' => ∃ new, out' = out ++ new ∧ (∀ D ∈ new, Delivered P C D) ∧ md' ≤ bound ∧
      (ok = true → ∀ p, IsGeneric p → target p = signedSum (entries P.mode new) p)
  | .notIrrational => True
  | .abort => True

theorem deliver_inv {n : ℕ} (P : Params n) {C : Cone n} (hC : Wf C) (out : List (Cone n)) (md : ℕ)
    (hirr : P.mode = .primal → isConeIrrational C) (h0 : criterion P.mode C ≠ 0)
    (hmax : P.maxDet = 0 ∨ criterion P.mode C ≤ P.maxDet) :
    Inv P C (fun p => C.coefficient * ind (cone C.rays) p) out md (deliver P C out md) := by
  obtain ⟨F, hF, hdual, hdd⟩ := hC.facets
  have hFd := det_transpose_mul_ne C.rays F C.facetDivisors hC.div_pos hdual
  unfold deliver
  cases hm : P.mode with
  | dual =>
    have hz : dualizeCone C = some (swapDual C F) := by unfold dualizeCone; rw [hF]
    simp only [hz]
    refine ⟨[swapDual C F], rfl, ?_, le_rfl, fun _ p hp => ?_⟩
    · intro D hD
      rw [List.mem_singleton] at hD
      subst hD
      refine ⟨rfl, hdd, ?_, ?_, ⟨C.rays, rfl, hC.det_eq, hC.det_ne, fun i j => ?_⟩, hC.div_pos,
        fun h => by (rw [hm] at h; cases h), fun h => by (rw [hm] at h; cases h)⟩
      · show C.dualDeterminant ≠ 0
        rw [hdd]; exact hFd
      · rw [hm] at hmax; exact hmax
      · show ∑ k, F i k * C.rays j k = if i = j then -C.facetDivisors j else 0
        have := hdual j i
        simp only [mul_comm] at this ⊢
        rw [this]
        by_cases hij : i = j
        · subst hij; simp
        · simp [hij, Ne.symm hij]
    · simp [entries, signedSum, hm, workRays, swapDual]
  | primal =>
    refine ⟨[C], rfl, ?_, le_rfl, fun _ p hp => ?_⟩
    · intro D hD
      rw [List.mem_singleton] at hD
      subst hD
      refine ⟨rfl, hC.det_eq, ?_, ?_, ⟨F, hF, hdd, hFd, hdual⟩, hC.div_pos, hirr, fun _ => hC.div_dvd⟩
      · rw [hC.det_eq]; exact hC.det_ne
      · rw [hm] at hmax; exact hmax
    · simp [entries, signedSum, hm, workRays]

theorem loop_inv {n : ℕ} [NeZero n] (P : Params n) (C : Cone n) (N : ℕ)
    (ch : Fin n → Option (Cone n)) (hN : ∀ j c, ch j = some c → c.determinant.natAbs < N)
    (hrec : ∀ j c, ch j = some c → ∀ depth out md,
      Inv P C (fun p => c.coefficient * ind (cone c.rays) p) out
        (max md (depth + c.determinant.natAbs - 1)) (dfs P c depth out md))
    (js : List (Fin n)) (depth : ℕ) (out : List (Cone n)) (md b : ℕ) (hb : md ≤ b)
    (hb2 : depth + (N - 1) - 1 ≤ b) :
    Inv P C (fun p => (js.map fun j => childTerm p (ch j)).sum) out b
      (loop P N ch hN js depth out md) := by
  induction js generalizing out md with
  | nil =>
    rw [loop]
    exact ⟨[], by simp, by simp, hb, fun _ p _ => by simp [entries, signedSum]⟩
  | cons j js ih =>
    rw [loop]
    split
    · trivial
    · rename_i c hc
      have h1 := hrec j c hc depth out md
      have hlt := hN j c hc
      split
      · rename_i out1 md1 hr
        rw [hr] at h1
        obtain ⟨new1, rfl, hd1, hm1, hs1⟩ := h1
        have hb' : md1 ≤ b := by
          rcases le_max_iff.mp hm1 with h | h <;> omega
        have h2 := ih (out ++ new1) md1 hb'
        generalize loop P N ch hN js depth (out ++ new1) md1 = r at h2
        cases r with
        | done ok out2 md2 =>
          obtain ⟨new2, rfl, hd2, hm2, hs2⟩ := h2
          refine ⟨new1 ++ new2, by simp, ?_, hm2, fun hok p hp => ?_⟩
          · intro D hD
            rcases List.mem_append.mp hD with h | h
            · exact hd1 D h
            · exact hd2 D h
          · have ec : childTerm p (ch j) = c.coefficient * ind (cone c.rays) p := by rw [hc]; rfl
            simp only [List.map_cons, List.sum_cons]
            have e1 := hs1 rfl p hp
            have e2 := hs2 hok p hp
            simp only at e1 e2
            rw [ec, e1, e2, ← signedSum_append]
            simp [entries]
        | notIrrational => trivial
        | abort => trivial
      · rename_i hne
        generalize hr : dfs P c depth out md = r at h1 hne
        cases r with
        | done ok out1 md1 =>
          obtain ⟨new1, rfl, hd1, hm1, hs1⟩ := h1
          cases ok with
          | true => exact absurd rfl (hne _ _)
          | false =>
            refine ⟨new1, rfl, hd1, ?_, fun h => by cases h⟩
            rcases le_max_iff.mp hm1 with h | h <;> omega
        | notIrrational => trivial
        | abort => trivial

theorem Delivered.trans_vertex {n : ℕ} {P : Params n} {C c D : Cone n} (h : Delivered P c D)
    (hv : c.vertex = C.vertex) : Delivered P C D :=
  { h with vertex := h.vertex.trans hv }

theorem dfs_inv {n : ℕ} [NeZero n] (P : Params n) (hP : P.ntl.Ok) (N : ℕ) :
    ∀ C : Cone n, C.determinant.natAbs = N → Wf C → ∀ depth out md,
      Inv P C (fun p => C.coefficient * ind (cone C.rays) p) out
        (max md (depth + C.determinant.natAbs - 1)) (dfs P C depth out md) := by
  induction N using Nat.strong_induction_on with
  | _ N ih =>
    intro C hCN hC depth out md
    have hpos : 1 ≤ C.determinant.natAbs := by
      have : C.determinant ≠ 0 := by rw [hC.det_eq]; exact hC.det_ne
      omega
    have hmd : (if depth > md then depth else md) ≤ max md (depth + C.determinant.natAbs - 1) := by
      split
      · exact le_max_of_le_right (by omega)
      · exact le_max_left _ _
    rw [dfs]
    split
    · rename_i h0
      exfalso
      obtain ⟨F, hF, hdual, hdd⟩ := hC.facets
      have hFd := det_transpose_mul_ne C.rays F C.facetDivisors hC.div_pos hdual
      unfold criterion at h0
      split at h0
      · rw [abs_eq_zero, hdd] at h0; exact hFd h0
      · rw [abs_eq_zero, hC.det_eq] at h0; exact hC.det_ne h0
    · rename_i h0
      split
      · trivial
      · rename_i hirr
        have hirr' : P.mode = .primal → isConeIrrational C := fun h => by
          by_contra hc; exact hirr ⟨h, hc⟩
        split
        · rename_i hmax
          have := deliver_inv P hC out (if depth > md then depth else md) hirr' h0 hmax
          generalize deliver P C out (if depth > md then depth else md) = r at this
          cases r with
          | done ok o m =>
            obtain ⟨new, h1, h2, h3, h4⟩ := this
            exact ⟨new, h1, h2, h3.trans hmd, h4⟩
          | notIrrational => trivial
          | abort => trivial
        · split
          · trivial
          · rename_i Z ch hstep
            split
            · trivial
            · obtain ⟨hch, hposZ, -⟩ := barvinokStep_spec hP hC hstep
              subst hch
              have hdec := step_decreases hstep
              have hrec : ∀ j c, childrenOf C Z j = some c → ∀ depth out md,
                  Inv P C (fun p => c.coefficient * ind (cone c.rays) p) out
                    (max md (depth + c.determinant.natAbs - 1)) (dfs P c depth out md) := by
                intro j c hc depth out md
                have hj : detsOf C.rays Z j ≠ 0 := by
                  intro hj; rw [childrenOf_none C Z j hj] at hc; cases hc
                obtain ⟨c', hc', hwf, -, hv, -⟩ := childrenOf_some C Z j hj
                rw [hc] at hc'
                cases hc'
                have := ih c.determinant.natAbs (hCN ▸ hdec j c hc) c rfl hwf depth out md
                generalize dfs P c depth out md = r at this
                cases r with
                | done ok o m =>
                  obtain ⟨new, h1, h2, h3, h4⟩ := this
                  exact ⟨new, h1, fun D hD => (h2 D hD).trans_vertex hv, h3, h4⟩
                | notIrrational => trivial
                | abort => trivial
              have hl := loop_inv P C C.determinant.natAbs (childrenOf C Z) hdec hrec
                (order (detsOf C.rays Z)) (depth + 1) out (if depth > md then depth else md)
                (max md (depth + C.determinant.natAbs - 1)) hmd (le_max_of_le_right (by omega))
              generalize loop P C.determinant.natAbs (childrenOf C Z) hdec
                (order (detsOf C.rays Z)) (depth + 1) out (if depth > md then depth else md) = r at hl ⊢
              cases r with
              | done ok o m =>
                obtain ⟨new, h1, h2, h3, h4⟩ := hl
                refine ⟨new, h1, h2, h3, fun hok p hp => ?_⟩
                have e := h4 hok p hp
                simp only at e ⊢
                rw [← e]
                rw [step_identity hC hposZ p (generic_off_planes _ hC.det_ne p hp) ?_]
                · obtain ⟨hnd, hmem⟩ := order_spec (detsOf C.rays Z)
                  rw [← List.sum_toFinset _ hnd]
                  symm
                  apply Finset.sum_subset (Finset.subset_univ _)
                  intro i _ hi
                  have : detsOf C.rays Z i = 0 := by
                    by_contra hc
                    exact hi (List.mem_toFinset.mpr ((hmem i).mpr hc))
                  rw [childrenOf_none C Z i this]; rfl
                · intro i c hc
                  have hj : detsOf C.rays Z i ≠ 0 := by
                    intro hj; rw [childrenOf_none C Z i hj] at hc; cases hc
                  obtain ⟨c', hc', hwf, -⟩ := childrenOf_some C Z i hj
                  rw [hc] at hc'
                  cases hc'
                  exact generic_off_planes _ hwf.det_ne p hp
              | notIrrational => trivial
              | abort => trivial

end Verif.Barvinok
