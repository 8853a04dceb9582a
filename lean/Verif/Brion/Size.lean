import Verif.Brion.Total

/-!
# C71: the number of cones of the signed decomposition

Barvinok's bound: with short vectors as good as Minkowski's theorem promises, the determinant of a cone at depth `t` is at most the
`((n-1)/n)^t`-th power of the determinant at the root, so the depth is logarithmic in the number of bits and the number of cones
polynomial in it (for fixed dimension).
-/

namespace Verif.Brion

open Verif.Barvinok Verif.Barvinok.Spec Verif.ExpSubst Verif.Irrational

variable {n m : ℕ}

/-- A bound on the height of the recursion: `Q t d` says that a cone of determinant `d` has height at most `t`. -/
structure Height [NeZero n] (N' : Ntl n) (Q : ℕ → ℕ → Prop) : Prop where
  zero : ∀ d, Q 0 d → d ≤ 1
  mono : ∀ t d d', d ≤ d' → Q t d' → Q t d
  step : ∀ (C : Cone n), Wf C → ∀ Z ch, barvinokStep N' C = some (Z, ch) → ∀ i c, ch i = some c → ∀ t, Q (t + 1) C.determinant.natAbs →
    Q t c.determinant.natAbs

theorem dfs_size [NeZero n] (P : Params n) (h1 : 1 ≤ P.maxDet) (Q : ℕ → ℕ → Prop) (hQ : Height P.ntl Q) : ∀ (t : ℕ) (C : Cone n), Wf C →
    Q t C.determinant.natAbs → ∀ depth out md ok out' md', dfs P C depth out md = .done ok out' md' →
    ∃ new, out' = out ++ new ∧ new.length ≤ n ^ t ∧ md' ≤ max md (depth + t) := by
  intro t
  have hn : 1 ≤ n := Nat.pos_of_ne_zero (NeZero.ne n)
  induction t with
  | zero =>
    intro C hC hq depth out md ok out' md' h
    have hdet := hQ.zero _ hq
    rw [dfs] at h
    have hmd : (if depth > md then depth else md) ≤ max md (depth + 0) := by split <;> omega
    revert h hmd
    generalize (if depth > md then depth else md) = md1
    intro h hmd
    split at h
    · cases h; exact ⟨[], by simp, by simp, hmd⟩
    split at h
    · cases h
    have hcr : criterion P.mode C ≤ P.maxDet := by
      have hd : |C.determinant| ≤ 1 := by rw [Int.abs_eq_natAbs]; omega
      unfold criterion
      split
      · have := det_dual_le hC hd; omega
      · omega
    rw [if_pos (Or.inr hcr)] at h
    unfold deliver at h
    split at h
    · split at h
      · cases h
      · cases h; exact ⟨[_], rfl, by simp, hmd⟩
    · cases h; exact ⟨[_], rfl, by simp, hmd⟩
  | succ t ih =>
    intro C hC hq depth out md ok out' md' h
    rw [dfs] at h
    have hmd : (if depth > md then depth else md) ≤ max md (depth + (t + 1)) := by split <;> omega
    revert h hmd
    generalize (if depth > md then depth else md) = md1
    intro h hmd
    have hpos : 1 ≤ n ^ (t + 1) := Nat.one_le_pow _ _ hn
    split at h
    · cases h; exact ⟨[], by simp, by simp, hmd⟩
    split at h
    · cases h
    split at h
    · unfold deliver at h
      split at h
      · split at h
        · cases h
        · cases h; exact ⟨[_], rfl, hpos, hmd⟩
      · cases h; exact ⟨[_], rfl, hpos, hmd⟩
    split at h
    · cases h
    rename_i Z ch hstep
    split at h
    · cases h
    have key : ∀ (js : List (Fin n)) depth out md ok out' md',
        loop P C.determinant.natAbs ch (step_decreases hstep) js depth out md = .done ok out' md' →
        ∃ new, out' = out ++ new ∧ new.length ≤ js.length * n ^ t ∧ md' ≤ max md (depth + t) := by
      intro js
      induction js with
      | nil =>
        intro depth out md ok out' md' h
        rw [loop] at h
        cases h
        exact ⟨[], by simp, by simp, le_max_left _ _⟩
      | cons j js ihj =>
        intro depth out md ok out' md' h
        rw [loop] at h
        split at h
        · cases h
        rename_i c hc
        have hwf : Wf c := by
          have hch : ch = childrenOf C Z := by
            unfold barvinokStep at hstep
            split at hstep
            · cases hstep
            · cases hstep; rfl
          rw [hch] at hc
          exact (wf_computeDetAndFacets (childrenOf_eq hc)).1
        have hcq := hQ.step C hC Z ch hstep j c hc t hq
        split at h
        · rename_i o1 m1 e1
          obtain ⟨new1, a1, a2, a3⟩ := ih c hwf hcq _ _ _ _ _ _ e1
          obtain ⟨new2, b1, b2, b3⟩ := ihj _ _ _ _ _ _ h
          refine ⟨new1 ++ new2, by rw [b1, a1, List.append_assoc], ?_, by omega⟩
          rw [List.length_append, List.length_cons, Nat.succ_mul]
          omega
        · rename_i hne
          obtain ⟨new1, a1, a2, a3⟩ := ih c hwf hcq _ _ _ _ _ _ h
          refine ⟨new1, a1, a2.trans ?_, a3⟩
          rw [List.length_cons, Nat.succ_mul]
          omega
    obtain ⟨new, a1, a2, a3⟩ := key _ _ _ _ _ _ _ h
    refine ⟨new, a1, a2.trans ?_, by omega⟩
    have hlen : (order (detsOf C.rays Z)).length ≤ n := by
      have := (order_spec (detsOf C.rays Z)).1.length_le_card
      simpa using this
    rw [pow_succ, mul_comm]
    exact Nat.mul_le_mul_left _ hlen

/-! ### Two bounds on the height -/

/-- Without any knowledge about the vectors: every step decreases the determinant. -/
theorem height_plain [NeZero n] (N' : Ntl n) : Height N' fun t d => d ≤ t + 1 where
  zero := fun _ h => h
  mono := fun _ _ _ h h' => h.trans h'
  step := fun C _ Z ch hs i c hc t h => by
    have := step_decreases hs i c hc
    omega

/-- With shortest vectors. -/
theorem height_shortest [NeZero n] (N' : Ntl n) (hN : N'.Ok) (hS : N'.ShortestRow) :
    Height N' fun t d => d ^ (n - 1) ^ t < 2 ^ n ^ t where
  zero := fun d h => by simp at h; omega
  mono := fun _ _ _ h h' => (Nat.pow_le_pow_left h _).trans_lt h'
  step := fun C hC Z ch hs i c hc t h => by
    have hn : n ≠ 0 := NeZero.ne n
    have hg := goodSteps_of_shortestRow ⟨N', .primal, 1, fun _ _ => true⟩ hN hS C hC 0 C (Reach.refl C) Z ch i c hs hc
    by_contra hcon
    push Not at hcon
    have h1 : (2 ^ n ^ t) ^ n ≤ (c.determinant.natAbs ^ (n - 1) ^ t) ^ n := Nat.pow_le_pow_left hcon n
    have h2 : (c.determinant.natAbs ^ (n - 1) ^ t) ^ n = (c.determinant.natAbs ^ n) ^ (n - 1) ^ t := by
      rw [← pow_mul, ← pow_mul, mul_comm]
    have h3 : (c.determinant.natAbs ^ n) ^ (n - 1) ^ t ≤ (C.determinant.natAbs ^ (n - 1)) ^ (n - 1) ^ t := Nat.pow_le_pow_left hg _
    have h4 : (C.determinant.natAbs ^ (n - 1)) ^ (n - 1) ^ t = C.determinant.natAbs ^ (n - 1) ^ (t + 1) := by
      rw [← pow_mul, pow_succ, mul_comm]
    have h5 : ((2 : ℕ) ^ n ^ t) ^ n = 2 ^ n ^ (t + 1) := by rw [← pow_mul, ← pow_succ]
    omega

/-- The number of bits suffices. -/
theorem bits_height (d t : ℕ) (hn : 1 ≤ n) (h : Nat.size d * (n - 1) ^ t ≤ n ^ t) : d ^ (n - 1) ^ t < 2 ^ n ^ t := by
  rcases Nat.eq_zero_or_pos ((n - 1) ^ t) with e | e
  · rw [e, pow_zero]
    exact Nat.one_lt_two_pow (Nat.pos_iff_ne_zero.1 (Nat.one_le_pow _ _ hn))
  · calc d ^ (n - 1) ^ t < (2 ^ Nat.size d) ^ (n - 1) ^ t := Nat.pow_lt_pow_left (Nat.lt_size_self d) e.ne'
      _ = 2 ^ (Nat.size d * (n - 1) ^ t) := (pow_mul _ _ _).symm
      _ ≤ 2 ^ n ^ t := Nat.pow_le_pow_right (by norm_num) h

/-! ### Lists of cones -/

/-- The determinant the recursion starts with: in the irrational primal variant the simplices come from the dual cone and are
dualized back first. -/
def startDet (v : Variant) (B : Mat n) : ℕ :=
  match v with
  | .irrationalPrimal => B.det.natAbs ^ (n - 1)
  | _ => B.det.natAbs

theorem dualDet_le [NeZero n] {C : Cone n} (hC : Wf C) : C.dualDeterminant.natAbs ≤ C.determinant.natAbs ^ (n - 1) := by
  obtain ⟨F, -, hdual, hF⟩ := hC.facets
  have h1 : C.rays * F.transpose = Matrix.diagonal fun j => -C.facetDivisors j := by
    ext i j
    rw [Matrix.mul_apply, Matrix.diagonal_apply]
    simp only [Matrix.transpose_apply]
    rw [hdual i j]
    by_cases hij : i = j
    · rw [if_pos hij, if_pos hij, hij]
    · rw [if_neg hij, if_neg hij]
  have h2 := congrArg (fun M => |Matrix.det M|) h1
  simp only [Matrix.det_mul, Matrix.det_transpose, Matrix.det_diagonal, abs_mul, Finset.abs_prod, abs_neg] at h2
  rw [← hC.det_eq, ← hF] at h2
  have hd0 : 0 < |C.determinant| := abs_pos.2 (by rw [hC.det_eq]; exact hC.det_ne)
  have h3 : ∏ j, |C.facetDivisors j| ≤ ∏ _j : Fin n, |C.determinant| := by
    refine Finset.prod_le_prod (fun _ _ => abs_nonneg _) fun j _ => ?_
    exact Int.le_of_dvd hd0 (by rw [abs_dvd, dvd_abs]; exact hC.div_dvd j)
  rw [Finset.prod_const, Finset.card_univ, Fintype.card_fin] at h3
  have h4 : |C.determinant| * |C.dualDeterminant| ≤ |C.determinant| * |C.determinant| ^ (n - 1) := by
    rw [h2]
    exact h3.trans (le_of_eq (mul_pow_sub_one (NeZero.ne n) _).symm)
  have h5 := le_of_mul_le_mul_left h4 hd0
  rw [Int.abs_eq_natAbs, Int.abs_eq_natAbs] at h5
  exact_mod_cast h5

theorem single_size [NeZero n] (P : Params n) (h1 : 1 ≤ P.maxDet) (Q : ℕ → ℕ → Prop) (hQ : Height P.ntl Q) (v : Variant)
    (irr : Cone n → Fin n → ℚ) (B : Mat n) (vertex : Fin n → ℚ) (t : ℕ) (ht : Q t (startDet v B)) (out : List (Cone n)) (md : ℕ)
    (ok : Bool) (out' : List (Cone n)) (md' : ℕ) (h : barvinokSingle P v irr B vertex out md = .done ok out' md') :
    ∃ new, out' = out ++ new ∧ new.length ≤ n ^ t ∧ md' ≤ max md t := by
  unfold barvinokSingle at h
  split at h
  · cases h
  rename_i hB
  have hcomp : ∀ D, computeDetAndFacets ⟨1, vertex, matrixGCD B, B.det, none, 0, 0⟩ = some D → Wf D ∧ D.determinant.natAbs ≤ B.det.natAbs := by
    intro D hD
    obtain ⟨hwf, hr, -, -⟩ := wf_computeDetAndFacets hD
    refine ⟨hwf, ?_⟩
    rw [hwf.det_eq, hr]
    exact natAbs_det_matrixGCD B
  have plain : ∀ D, computeDetAndFacets ⟨1, vertex, matrixGCD B, B.det, none, 0, 0⟩ = some D → Q t B.det.natAbs →
      dfs P D 0 out md = .done ok out' md' → ∃ new, out' = out ++ new ∧ new.length ≤ n ^ t ∧ md' ≤ max md t := by
    intro D hD hq hrun
    obtain ⟨hwf, hdet⟩ := hcomp D hD
    have := dfs_size P h1 Q hQ t D hwf (hQ.mono _ _ _ hdet hq) 0 out md ok out' md' hrun
    rwa [Nat.zero_add] at this
  cases v with
  | dual =>
    simp only at h
    split at h
    · cases h
    · rename_i D hD; exact plain D hD ht h
  | irrationalAllPrimal =>
    simp only at h
    split at h
    · cases h
    · rename_i D hD; exact plain D hD ht h
  | irrationalPrimal =>
    simp only at h
    obtain ⟨-, D0, h0, hwf, -, -, -⟩ := start_wf B hB vertex
    rw [h0] at h
    simp only at h
    have hdet : D0.determinant.natAbs ≤ B.det.natAbs ^ (n - 1) := by
      unfold dualizeCone at h0
      simp only at h0
      split at h0
      · cases h0
      · rename_i E hE
        obtain ⟨hwE, hdE⟩ := hcomp E hE
        split at h0
        · cases h0
          exact (dualDet_le hwE).trans (Nat.pow_le_pow_left hdE _)
        · cases h0
    have := dfs_size P h1 Q hQ t _ (wf_vertex hwf (irr D0)) (hQ.mono _ _ _ hdet ht) 0 out md ok out' md' h
    rwa [Nat.zero_add] at this

theorem list_size [NeZero n] (P : Params n) (h1 : 1 ≤ P.maxDet) (Q : ℕ → ℕ → Prop) (hQ : Height P.ntl Q) (v : Variant)
    (irr : Cone n → Fin n → ℚ) (vertex : Fin n → ℚ) (t : Mat n → ℕ) : ∀ (T : List (Mat n)), (∀ B ∈ T, Q (t B) (startDet v B)) →
    ∀ out md ok out' md', barvinokDecompositionSingle P v irr vertex T out md = .done ok out' md' →
    ∃ new, out' = out ++ new ∧ new.length ≤ (T.map fun B => n ^ t B).sum := by
  intro T
  induction T with
  | nil =>
    intro _ out md ok out' md' h
    unfold barvinokDecompositionSingle at h
    cases h
    exact ⟨[], by simp, by simp⟩
  | cons B T ih =>
    intro hT out md ok out' md' h
    unfold barvinokDecompositionSingle at h
    split at h
    · rename_i o1 m1 e1
      obtain ⟨new1, a1, a2, -⟩ := single_size P h1 Q hQ v irr B vertex (t B) (hT B List.mem_cons_self) _ _ _ _ _ e1
      obtain ⟨new2, b1, b2⟩ := ih (fun B' hB' => hT B' (List.mem_cons_of_mem _ hB')) _ _ _ _ _ h
      refine ⟨new1 ++ new2, by rw [b1, a1, List.append_assoc], ?_⟩
      rw [List.length_append, List.map_cons, List.sum_cons]
      omega
    · rename_i r hne
      obtain ⟨new1, a1, a2, -⟩ := single_size P h1 Q hQ v irr B vertex (t B) (hT B List.mem_cons_self) _ _ _ _ _ h
      refine ⟨new1, a1, ?_⟩
      rw [List.map_cons, List.sum_cons]
      omega

theorem decomposition_size [NeZero n] (P : Params n) (h1 : 1 ≤ P.maxDet) (Q : ℕ → ℕ → Prop) (hQ : Height P.ntl Q) (v : Variant)
    (irr : Cone n → Fin n → ℚ) (t : Mat n → ℕ) : ∀ (cones : List ((Fin n → ℚ) × List (Mat n))),
    (∀ c ∈ cones, ∀ B ∈ c.2, Q (t B) (startDet v B)) →
    ∀ out md ok out' md', decompositionList P v irr cones out md = .done ok out' md' →
    ∃ new, out' = out ++ new ∧ new.length ≤ (cones.map fun c => (c.2.map fun B => n ^ t B).sum).sum := by
  intro cones
  induction cones with
  | nil =>
    intro _ out md ok out' md' h
    unfold decompositionList at h
    cases h
    exact ⟨[], by simp, by simp⟩
  | cons c cones ih =>
    obtain ⟨vertex, T⟩ := c
    intro hT out md ok out' md' h
    unfold decompositionList at h
    split at h
    · rename_i o1 m1 e1
      obtain ⟨new1, a1, a2⟩ := list_size P h1 Q hQ v irr vertex t T (hT _ List.mem_cons_self) _ _ _ _ _ e1
      obtain ⟨new2, b1, b2⟩ := ih (fun c' hc' => hT c' (List.mem_cons_of_mem _ hc')) _ _ _ _ _ h
      refine ⟨new1 ++ new2, by rw [b1, a1, List.append_assoc], ?_⟩
      rw [List.length_append, List.map_cons, List.sum_cons]
      show _ ≤ (T.map fun B => n ^ t B).sum + _
      omega
    · rename_i r hne
      obtain ⟨new1, a1, a2⟩ := list_size P h1 Q hQ v irr vertex t T (hT _ List.mem_cons_self) _ _ _ _ _ h
      refine ⟨new1, a1, ?_⟩
      rw [List.map_cons, List.sum_cons]
      show _ ≤ (T.map fun B => n ^ t B).sum + _
      omega

theorem delivered_size [NeZero n] (N' : Ntl n) (maxDet : ℤ) (h1 : 1 ≤ maxDet) (Q : ℕ → ℕ → Prop) (hQ : Height N' Q) (v : Variant)
    (irr : Cone n → Fin n → ℚ) (t : Mat n → ℕ) (cones : List ((Fin n → ℚ) × List (Mat n)))
    (ht : ∀ c ∈ cones, ∀ B ∈ c.2, Q (t B) (startDet v B)) (D : List (Cone n)) (hD : delivered N' v irr maxDet cones = some D) :
    D.length ≤ (cones.map fun c => (c.2.map fun B => n ^ t B).sum).sum := by
  unfold delivered at hD
  split at hD
  · rename_i out md hrun
    cases hD
    obtain ⟨new, e, h⟩ := decomposition_size ⟨N', v.mode, maxDet, fun _ _ => true⟩ h1 Q hQ v irr t cones ht _ _ _ _ _ hrun
    rw [List.nil_append] at e
    rw [e]
    exact h
  · cases hD

/-- **C71, whatever vectors the lattice reduction finds.** A simplex of determinant `d` yields at most `n^(d-1)` cones. -/
theorem c71_always [NeZero n] (N' : Ntl n) (maxDet : ℤ) (h1 : 1 ≤ maxDet) (v : Variant)
    (irr : Cone n → Fin n → ℚ) (cones : List ((Fin n → ℚ) × List (Mat n))) (D : List (Cone n))
    (hD : delivered N' v irr maxDet cones = some D) :
    D.length ≤ (cones.map fun c => (c.2.map fun B => n ^ (startDet v B - 1)).sum).sum :=
  delivered_size N' maxDet h1 _ (height_plain N') v irr (fun B => startDet v B - 1) cones (fun _ _ _ _ => by omega) D hD

/-- **C71, Barvinok's bound.** If the lattice reduction starts with a shortest vector, a simplex of determinant `d` yields at most
`n^t` cones as soon as the number of bits of `d` is at most `(n/(n-1))^t`: the depth is logarithmic in the number of bits. -/
theorem c71_barvinok [NeZero n] (N' : Ntl n) (hN : N'.Ok) (hS : N'.ShortestRow) (maxDet : ℤ) (h1 : 1 ≤ maxDet) (v : Variant)
    (irr : Cone n → Fin n → ℚ) (cones : List ((Fin n → ℚ) × List (Mat n))) (D : List (Cone n))
    (hD : delivered N' v irr maxDet cones = some D) (t : Mat n → ℕ)
    (ht : ∀ c ∈ cones, ∀ B ∈ c.2, Nat.size (startDet v B) * (n - 1) ^ t B ≤ n ^ t B) :
    D.length ≤ (cones.map fun c => (c.2.map fun B => n ^ t B).sum).sum :=
  delivered_size N' maxDet h1 _ (height_shortest N' hN hS) v irr t cones
    (fun c hc B hB => bits_height _ _ (Nat.pos_of_ne_zero (NeZero.ne n)) (ht c hc B hB)) D hD

/-- The depth in terms of the number of bits: polynomially many cones. -/
theorem height_polynomial (n s k : ℕ) (hn : 1 ≤ n) (hs : 1 ≤ s) (hk : n * (n - 1) ^ k ≤ n ^ k) :
    ∃ t, s * (n - 1) ^ t ≤ n ^ t ∧ n ^ t ≤ n * s ^ k := by
  classical
  have hex : ∃ t, s * (n - 1) ^ t ≤ n ^ t := by
    obtain ⟨k', rfl⟩ : ∃ k, n = k + 1 := ⟨n - 1, by omega⟩
    rcases Nat.eq_zero_or_pos k' with rfl | hk'
    · exact ⟨1, by simp⟩
    refine ⟨k * s, ?_⟩
    rw [pow_mul, pow_mul]
    calc s * ((k' + 1 - 1) ^ k) ^ s ≤ (k' + 1) ^ s * ((k' + 1 - 1) ^ k) ^ s := by
          refine Nat.mul_le_mul_right _ ?_
          calc s ≤ 2 ^ s := Nat.lt_two_pow_self.le
            _ ≤ (k' + 1) ^ s := Nat.pow_le_pow_left (by omega) _
      _ = ((k' + 1) * (k' + 1 - 1) ^ k) ^ s := (mul_pow _ _ _).symm
      _ ≤ ((k' + 1) ^ k) ^ s := Nat.pow_le_pow_left hk _
  refine ⟨Nat.find hex, Nat.find_spec hex, ?_⟩
  rcases Nat.eq_zero_or_pos (Nat.find hex) with h0 | h0
  · rw [h0, pow_zero]
    exact Nat.one_le_iff_ne_zero.2 (Nat.mul_ne_zero (by omega) (pow_ne_zero _ (by omega)))
  obtain ⟨t, ht⟩ : ∃ t, Nat.find hex = t + 1 := ⟨Nat.find hex - 1, by omega⟩
  rw [ht, pow_succ, mul_comm]
  refine Nat.mul_le_mul_left _ ?_
  have hlt := Nat.find_min hex (show t < Nat.find hex by omega)
  push Not at hlt
  rcases Nat.lt_or_ge n 2 with hn2 | hn2
  · have : n = 1 := by omega
    rw [this, one_pow]
    exact Nat.one_le_pow _ _ hs
  have h1 : n ^ t * ((n - 1) ^ k) ^ t ≤ (n ^ k) ^ t := by
    rw [← mul_pow]; exact Nat.pow_le_pow_left hk t
  have h2 : (n ^ k) ^ t ≤ s ^ k * ((n - 1) ^ k) ^ t := by
    calc (n ^ k) ^ t = (n ^ t) ^ k := by rw [← pow_mul, ← pow_mul, mul_comm]
      _ ≤ (s * (n - 1) ^ t) ^ k := Nat.pow_le_pow_left hlt.le k
      _ = s ^ k * ((n - 1) ^ k) ^ t := by rw [mul_pow, ← pow_mul, ← pow_mul, mul_comm t k]
  exact Nat.le_of_mul_le_mul_right (h1.trans h2) (Nat.pow_pos (Nat.pow_pos (by omega)))

theorem exponent_ok (n : ℕ) (hn : 1 ≤ n) : n * (n - 1) ^ (n * (n - 1)) ≤ n ^ (n * (n - 1)) := by
  obtain ⟨k, rfl⟩ : ∃ k, n = k + 1 := ⟨n - 1, by omega⟩
  rcases Nat.eq_zero_or_pos k with rfl | hk
  · simp
  rw [Nat.add_sub_cancel]
  have h1 : 2 * k ^ k ≤ (k + 1) ^ k := by
    have := one_add_mul_le_pow (R := ℚ) (a := 1 / k) (le_trans (by norm_num) (by positivity : (0 : ℚ) ≤ 1 / k)) k
    have hk0 : (k : ℚ) ≠ 0 := by positivity
    rw [mul_one_div_cancel hk0] at this
    have h2 : ((1 + 1 / k : ℚ)) ^ k = (k + 1) ^ k / k ^ k := by
      rw [← div_pow]; congr 1; field_simp
    rw [h2, le_div_iff₀ (by positivity)] at this
    have h3 : (2 : ℚ) * k ^ k ≤ (k + 1) ^ k := by linarith
    exact_mod_cast h3
  rw [mul_comm (k + 1) k, pow_mul, pow_mul]
  calc (k + 1) * (k ^ k) ^ (k + 1) ≤ 2 ^ (k + 1) * (k ^ k) ^ (k + 1) := Nat.mul_le_mul_right _ (Nat.lt_two_pow_self).le
    _ = (2 * k ^ k) ^ (k + 1) := (mul_pow _ _ _).symm
    _ ≤ ((k + 1) ^ k) ^ (k + 1) := Nat.pow_le_pow_left h1 _

/-- **C71, polynomially many cones in fixed dimension.** If the lattice reduction starts with a shortest vector, the decomposition of a
simplex of determinant `d` has at most `n · (number of bits of d)^(n(n-1))` cones. -/
theorem c71_polynomial [NeZero n] (N' : Ntl n) (hN : N'.Ok) (hS : N'.ShortestRow) (maxDet : ℤ) (h1 : 1 ≤ maxDet) (v : Variant)
    (irr : Cone n → Fin n → ℚ) (cones : List ((Fin n → ℚ) × List (Mat n))) (hB : ∀ c ∈ cones, ∀ B ∈ c.2, B.det ≠ 0) (D : List (Cone n))
    (hD : delivered N' v irr maxDet cones = some D) :
    D.length ≤ (cones.map fun c => (c.2.map fun B => n * Nat.size (startDet v B) ^ (n * (n - 1))).sum).sum := by
  classical
  have hn : 1 ≤ n := Nat.pos_of_ne_zero (NeZero.ne n)
  have hex : ∀ B : Mat n, ∃ t, B.det ≠ 0 → Nat.size (startDet v B) * (n - 1) ^ t ≤ n ^ t ∧
      n ^ t ≤ n * Nat.size (startDet v B) ^ (n * (n - 1)) := by
    intro B
    by_cases h : B.det = 0
    · exact ⟨0, fun h' => absurd h h'⟩
    · have hpos : 1 ≤ Nat.size (startDet v B) := by
        apply Nat.size_pos.2
        unfold startDet
        have := Int.natAbs_pos.2 h
        split
        · exact Nat.pow_pos this
        · exact this
      obtain ⟨t, a1, a2⟩ := height_polynomial n _ _ hn hpos (exponent_ok n hn)
      exact ⟨t, fun _ => ⟨a1, a2⟩⟩
  choose t ht using hex
  refine (c71_barvinok N' hN hS maxDet h1 v irr cones D hD t fun c hc B hBc => (ht B (hB c hc B hBc)).1).trans ?_
  refine List.sum_le_sum fun c hc => List.sum_le_sum fun B hBc => (ht B (hB c hc B hBc)).2

end Verif.Brion
