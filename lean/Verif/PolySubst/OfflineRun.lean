import Verif.PolySubst.OfflineCount
import Verif.PolySubst.Brion
import Verif.Preprocess.EndToEnd

/-!
# C72, end to end: `count --memsave=no`
-/

namespace Verif.PolySubst

open PowerSeries
open Verif.Barvinok (Cone Mat Vec Ntl Variant rel)
open Verif.Barvinok
open Verif.Barvinok.Spec
open Verif.ExpSubst
open Verif.Brion
open Verif.Irrational

variable {n m k N : ℕ}

/-! ### The decomposition is not empty -/

theorem dualDeterminant_ne {C : Cone n} (hC : Wf C) : C.dualDeterminant ≠ 0 := by
  obtain ⟨F, -, hdual, hF⟩ := hC.facets
  have h1 : C.rays * F.transpose = Matrix.diagonal fun j => -C.facetDivisors j := by
    ext i j
    rw [Matrix.mul_apply, Matrix.diagonal_apply]
    simp only [Matrix.transpose_apply]
    rw [hdual i j]
    by_cases hij : i = j
    · subst hij; simp
    · simp [hij]
  have h2 := congrArg Matrix.det h1
  rw [Matrix.det_mul, Matrix.det_transpose, Matrix.det_diagonal, ← hF] at h2
  intro h0
  rw [h0, mul_zero] at h2
  exact Finset.prod_ne_zero_iff.2 (fun j _ => neg_ne_zero.2 (hC.div_pos j).ne') h2.symm

theorem dfs_nonempty [NeZero n] (P : Params n) (hN : P.ntl.Ok) : ∀ (t : ℕ) (C : Cone n), C.determinant.natAbs ≤ t → Wf C →
    ∀ depth out md out' md', dfs P C depth out md = .done true out' md' → ∃ new, out' = out ++ new ∧ new ≠ [] := by
  intro t
  induction t with
  | zero =>
    intro C ht hC
    have := hC.det_ne
    rw [← hC.det_eq] at this
    omega
  | succ t ih =>
    intro C ht hC depth out md out' md' h
    rw [dfs] at h
    revert h
    generalize (if depth > md then depth else md) = md1
    intro h
    have hcr : criterion P.mode C ≠ 0 := by
      have hd : C.determinant ≠ 0 := by rw [hC.det_eq]; exact hC.det_ne
      unfold criterion
      split
      · exact abs_ne_zero.2 (dualDeterminant_ne hC)
      · exact abs_ne_zero.2 hd
    rw [if_neg hcr] at h
    split at h
    · cases h
    split at h
    · unfold deliver at h
      split at h
      · split at h
        · cases h
        · injection h with _ h _; exact ⟨[_], h.symm, by simp⟩
      · injection h with _ h _; exact ⟨[_], h.symm, by simp⟩
    split at h
    · cases h
    rename_i Z ch hstep
    split at h
    · cases h
    have hZ : chooseOmega P.ntl C = some Z ∧ ch = childrenOf C Z := by
      unfold barvinokStep at hstep
      split at hstep
      · cases hstep
      · rename_i Z' hZ'; cases hstep; exact ⟨hZ', rfl⟩
    obtain ⟨⟨i, hi⟩, -⟩ := chooseOmega_spec hN hC hZ.1
    have key : ∀ (js : List (Fin n)) depth out md out' md',
        loop P C.determinant.natAbs ch (step_decreases hstep) js depth out md = .done true out' md' →
        ∃ new, out' = out ++ new ∧ (js ≠ [] → new ≠ []) := by
      intro js
      induction js with
      | nil =>
        intro depth out md out' md' h
        rw [loop] at h
        cases h
        exact ⟨[], by simp, by simp⟩
      | cons j js ihj =>
        intro depth out md out' md' h
        rw [loop] at h
        split at h
        · cases h
        rename_i c hc
        have hwf : Wf c := by
          have hc' := hc
          rw [hZ.2] at hc'
          exact (wf_computeDetAndFacets (childrenOf_eq hc')).1
        have hlt := step_decreases hstep j c hc
        split at h
        · rename_i o1 m1 e1
          obtain ⟨new1, a1, a2⟩ := ih c (by omega) hwf _ _ _ _ _ e1
          obtain ⟨new2, b1, -⟩ := ihj _ _ _ _ _ h
          exact ⟨new1 ++ new2, by rw [b1, a1, List.append_assoc], fun _ => by simp [a2]⟩
        · rename_i hne
          exact absurd h (hne _ _)
    obtain ⟨new, a1, a2⟩ := key _ _ _ _ _ _ h
    refine ⟨new, a1, a2 ?_⟩
    intro h0
    have : i ∈ order (detsOf C.rays Z) := ((order_spec _).2 i).2 (by intro h; rw [h, zero_mul] at hi; exact lt_irrefl _ hi)
    rw [h0] at this
    cases this

theorem single_nonempty [NeZero n] (P : Params n) (hN : P.ntl.Ok) (v : Variant) (irr : Cone n → Fin n → ℚ) (B : Mat n) (vertex : Fin n → ℚ)
    (out : List (Cone n)) (md : ℕ) (out' : List (Cone n)) (md' : ℕ) (h : barvinokSingle P v irr B vertex out md = .done true out' md') :
    ∃ new, out' = out ++ new ∧ new ≠ [] := by
  unfold barvinokSingle at h
  split at h
  · cases h
  rename_i hB
  cases v with
  | dual =>
    simp only at h
    split at h
    · cases h
    · rename_i D hD; exact dfs_nonempty P hN _ D le_rfl (wf_computeDetAndFacets hD).1 _ _ _ _ _ h
  | irrationalAllPrimal =>
    simp only at h
    split at h
    · cases h
    · rename_i D hD; exact dfs_nonempty P hN _ D le_rfl (wf_computeDetAndFacets hD).1 _ _ _ _ _ h
  | irrationalPrimal =>
    simp only at h
    obtain ⟨-, D0, h0, hwf, -, -, -⟩ := start_wf B hB vertex
    rw [h0] at h
    simp only at h
    exact dfs_nonempty P hN _ _ le_rfl (wf_vertex hwf (irr D0)) _ _ _ _ _ h

/-- A non-empty input gives a non-empty list of cones. -/
theorem delivered_nonempty [NeZero n] (N' : Ntl n) (hN : N'.Ok) (v : Variant) (irr : Cone n → Fin n → ℚ) (maxDet : ℤ)
    (cones : List ((Fin n → ℚ) × List (Mat n))) (hne : ∃ c ∈ cones, c.2 ≠ []) (D : List (Cone n))
    (hD : delivered N' v irr maxDet cones = some D) : D ≠ [] := by
  have list : ∀ (T : List (Mat n)) vertex out md out' md',
      barvinokDecompositionSingle ⟨N', v.mode, maxDet, fun _ _ => true⟩ v irr vertex T out md = .done true out' md' →
      ∃ new, out' = out ++ new ∧ (T ≠ [] → new ≠ []) := by
    intro T vertex
    induction T with
    | nil => intro out md out' md' h; unfold barvinokDecompositionSingle at h; cases h; exact ⟨[], by simp, by simp⟩
    | cons B T ih =>
      intro out md out' md' h
      unfold barvinokDecompositionSingle at h
      split at h
      · rename_i o1 m1 e1
        obtain ⟨new1, a1, a2⟩ := single_nonempty _ hN v irr B vertex _ _ _ _ e1
        obtain ⟨new2, b1, -⟩ := ih _ _ _ _ h
        exact ⟨new1 ++ new2, by rw [b1, a1, List.append_assoc], fun _ => by simp [a2]⟩
      · rename_i hne; exact absurd h (hne _ _)
  have all : ∀ (L : List ((Fin n → ℚ) × List (Mat n))) out md out' md',
      decompositionList ⟨N', v.mode, maxDet, fun _ _ => true⟩ v irr L out md = .done true out' md' →
      ∃ new, out' = out ++ new ∧ ((∃ c ∈ L, c.2 ≠ []) → new ≠ []) := by
    intro L
    induction L with
    | nil => intro out md out' md' h; unfold decompositionList at h; cases h; exact ⟨[], by simp, by simp⟩
    | cons c L ih =>
      obtain ⟨vertex, T⟩ := c
      intro out md out' md' h
      unfold decompositionList at h
      split at h
      · rename_i o1 m1 e1
        obtain ⟨new1, a1, a2⟩ := list T vertex _ _ _ _ e1
        obtain ⟨new2, b1, b2⟩ := ih _ _ _ _ h
        refine ⟨new1 ++ new2, by rw [b1, a1, List.append_assoc], ?_⟩
        rintro ⟨c, hc, hcT⟩ h0
        rw [List.append_eq_nil_iff] at h0
        rcases List.mem_cons.1 hc with rfl | hc
        · exact a2 hcT h0.1
        · exact b2 ⟨c, hc, hcT⟩ h0.2
      · rename_i hne; exact absurd h (hne _ _)
  unfold delivered at hD
  split at hD
  · rename_i out md hrun
    cases hD
    obtain ⟨new, e, h⟩ := all cones _ _ _ _ hrun
    rw [List.nil_append] at e
    rw [e]
    exact h hne
  · cases hD

/-! ### Points -/

/-- All cones unimodular: the points are computed, one for each cone. -/
theorem computePoints_ok (X : Smith.Xgcd) (fuel : ℕ) : ∀ (D : List (Cone (m + 1))), (∀ C ∈ D, Ready fuel C) → (∀ C ∈ D, |C.rays.det| = 1) →
    ∃ pt : Cone (m + 1) → Vec (m + 1), computePoints X fuel D = .ok (D.map fun C => ⟨C.coefficient, [pt C], List.ofFn fun i => C.rays i⟩) ∧
      ∀ C ∈ D, act (den' (List.ofFn fun i => C.rays i)) (coneInd C.rays C.vertex) = emb (gf [pt C]) := by
  intro D hD h1
  have hex : ∀ C ∈ D, ∃ pt : Vec (m + 1), (∃ F, C.facets = some F ∧ Piped.points X (pipedInput C F) fuel = .ok [pt]) ∧
      act (den' (List.ofFn fun i => C.rays i)) (coneInd C.rays C.vertex) = emb (gf [pt]) := by
    intro C hC
    obtain ⟨F, hF, hG⟩ := (hD C hC).facets
    obtain ⟨pts, a1, a2, a3, a4⟩ := Piped.c13_points_exact X (pipedInput C F) hG (hD C hC).small fuel (hD C hC).fuel
    have a3' : (pts.length : ℤ) = |C.rays.det| := a3
    rw [h1 C hC] at a3'
    obtain ⟨pt, rfl⟩ := List.length_eq_one_iff.1 (by exact_mod_cast a3' : pts.length = 1)
    refine ⟨pt, ⟨F, hF, a1⟩, ?_⟩
    rw [den'_ofFn]
    exact act_cone C F hG _ a2 fun p => by rw [a4, pipedInput_vertex]; rfl
  choose! pt hpt using hex
  refine ⟨pt, ?_, fun C hC => (hpt C hC).2⟩
  clear hD h1
  induction D with
  | nil => rfl
  | cons C Cs ih =>
    obtain ⟨F, hF, hP⟩ := (hpt C List.mem_cons_self).1
    unfold computePoints
    simp only [hF, hP, ih fun D hD => hpt D (List.mem_cons_of_mem _ hD)]
    rfl

/-- One cone that is not unimodular: `Residue` and `ProjectUp2` stop. -/
theorem computePoints_large (X : Smith.Xgcd) (fuel : ℕ) : ∀ (D : List (Cone (m + 1))), (∀ C ∈ D, Ready fuel C) → (∃ C ∈ D, |C.rays.det| ≠ 1) →
    ∃ P : List (OffCone (m + 1)), computePoints X fuel D = .ok P ∧ ∃ C ∈ P, C.points.length ≠ 1 := by
  have hall : ∀ (D : List (Cone (m + 1))), (∀ C ∈ D, Ready fuel C) → ∃ P : List (OffCone (m + 1)), computePoints X fuel D = .ok P ∧
      ∀ C ∈ D, ∃ O ∈ P, (O.points.length : ℤ) = |C.rays.det| := by
    intro D
    induction D with
    | nil => intro _; exact ⟨[], rfl, by simp⟩
    | cons C Cs ih =>
      intro hD
      obtain ⟨P, h1, h2⟩ := ih fun D hd => hD D (List.mem_cons_of_mem _ hd)
      have hC := hD C List.mem_cons_self
      obtain ⟨F, hF, hG⟩ := hC.facets
      obtain ⟨pts, a1, -, a3, -⟩ := Piped.c13_points_exact X (pipedInput C F) hG hC.small fuel hC.fuel
      refine ⟨⟨C.coefficient, pts, List.ofFn fun i => C.rays i⟩ :: P, ?_, ?_⟩
      · unfold computePoints
        simp only [hF, a1, h1]
      · intro E hE
        rcases List.mem_cons.1 hE with rfl | hE
        · exact ⟨_, List.mem_cons_self, a3⟩
        · obtain ⟨O, hO, h⟩ := h2 E hE
          exact ⟨O, List.mem_cons_of_mem _ hO, h⟩
  intro D hD ⟨C, hC, hne⟩
  obtain ⟨P, h1, h2⟩ := hall D hD
  obtain ⟨O, hO, h⟩ := h2 C hC
  refine ⟨P, h1, O, hO, fun e => hne ?_⟩
  rw [← h, e]
  rfl

theorem residue_abort (P : List (OffCone (m + 1))) (h : ∃ C ∈ P, C.points.length ≠ 1) (tries : ℕ) (guesses : ℕ → Vec (m + 1)) :
    residue P tries guesses = .error .abort := by
  obtain ⟨C, hC, hne⟩ := h
  cases P with
  | nil => cases hC
  | cons C0 P =>
    unfold residue
    simp only
    rw [if_pos]
    exact List.any_eq_true.2 ⟨C, hC, by simpa using hne⟩

theorem decomposeCones_eq [NeZero n] (N' : Ntl n) (v : Variant) (irr : Cone n → Fin n → ℚ) (maxDet : ℤ)
    (cones : List ((Fin n → ℚ) × List (Mat n))) (D : List (Cone n)) (hD : delivered N' v irr maxDet cones = some D) :
    decomposeCones N' v irr maxDet cones = .ok D.reverse := by
  unfold delivered at hD
  unfold decomposeCones
  split at hD
  · rename_i out md hrun
    cases hD
    rw [hrun]
  · cases hD

theorem projectUpCones_map {d : ℕ} (p : Vec (k + 1)) (B : Fin d → Vec (k + 1)) {β : Type*} (eps : β → ℤ) (rays : β → List (Vec d)) (pt : β → Vec d)
    (L : List β) : projectUpCones p B (L.map fun x => ⟨eps x, [pt x], rays x⟩) = .ok (L.map (lifted p B eps rays pt)) := by
  induction L with
  | nil => rfl
  | cons x L ih =>
    rw [List.map_cons, projectUpCones, ih]
    rfl

theorem lifted_id {β : Type*} (eps : β → ℤ) (rays : β → List (Vec (m + 1))) (pt : β → Vec (m + 1)) (x : β) :
    lifted 0 (fun j k => if j = k then 1 else 0) eps rays pt x = ⟨eps x, [pt x], rays x⟩ := by
  have h : ∀ u : Vec (m + 1), (fun k => ∑ j, (if j = k then 1 else 0) * u j) = u := by
    intro u; funext k; simp
  unfold lifted Preprocess.projectUp
  have h2 : (rays x).map (fun r k => ∑ j, (if j = k then 1 else 0) * r j) = rays x := by
    conv_rhs => rw [← List.map_id (rays x)]
    exact List.map_congr_left fun u _ => h u
  rw [h2]
  simp only [h, Pi.zero_apply, zero_add]

/-! ### The run -/

/-- The cones delivered with `maxDet = 1` are unimodular. -/
theorem delivered_unimodular (N' : Ntl (m + 1)) (hN : N'.Ok) (v : Variant) (irr : Cone (m + 1) → Fin (m + 1) → ℚ)
    (cones : List ((Fin (m + 1) → ℚ) × List (Mat (m + 1)))) (D : List (Cone (m + 1))) (hD : delivered N' v irr 1 cones = some D) :
    ∀ C ∈ D, |C.rays.det| = 1 := by
  intro C hC
  have hr := delivered_ready N' hN v irr 1 one_ne_zero (by decide) 2 (by norm_num) cones D hD C hC
  obtain ⟨F, -, hG⟩ := hr.facets
  have h1 := Int.one_le_abs (show C.rays.det ≠ 0 from hG.ne)
  have := hr.fuel
  push_cast at this
  omega

/-- **C72, the run.** Let the decomposition into unimodular cones deliver the (non-empty) list `D`, and let the inputs add up to the indicator of `S`.  The
cones are put into the original coordinates with `p` and `B`; the program ends with the number of points of `S`, or goes on searching if all vectors drawn so far
are orthogonal to a ray. -/
theorem c72_run_projected (p : Vec (k + 1)) (B : Fin (m + 1) → Vec (k + 1)) (N' : Ntl (m + 1)) (hN : N'.Ok) (X : Smith.Xgcd) (v : Variant)
    (irr : Cone (m + 1) → Fin (m + 1) → ℚ) (hirr : v = .irrationalPrimal → IrrOk irr) (fuel : ℕ) (hfuel : 1 < fuel)
    (cones : List ((Fin (m + 1) → ℚ) × List (Mat (m + 1)))) (D : List (Cone (m + 1)))
    (hD : delivered N' v irr 1 cones = some D) (hne : D ≠ []) (hint : ((m + 1 : ℕ) : ℤ) * D.length ≤ Piped.intMax)
    (S : List (Vec (m + 1))) (hS : S.Nodup) (g : Vec (m + 1) → ℚ) (hg : g ∈ negligible (m + 1))
    (hind : ∀ z, (((cones.map fun c => (c.2.map fun B => inputInd v c.1 B z).sum).sum : ℤ) : ℚ) = (if z ∈ S then 1 else 0) + g z)
    (tries : ℕ) (guesses : ℕ → Vec (k + 1)) :
    countInMemoryProjected p B N' X v irr 1 fuel cones tries guesses = .ok (S.length : ℤ) ∨
    countInMemoryProjected p B N' X v irr 1 fuel cones tries guesses = .error .fuel ∧
      ∀ t < tries, ∃ C ∈ D, ∃ i, ip (guesses t) (fun l => ∑ j, B j l * C.rays i j) = 0 := by
  have hready := delivered_ready N' hN v irr 1 one_ne_zero (by decide) fuel (by exact_mod_cast hfuel) cones D hD
  obtain ⟨pt, h1, h2⟩ := computePoints_ok X fuel D.reverse (fun C hC => hready C (List.mem_reverse.1 hC))
    (fun C hC => delivered_unimodular N' hN v irr cones D hD C (List.mem_reverse.1 hC))
  obtain ⟨g', hg', hind'⟩ := delivered_sum N' hN X v irr hirr 1 one_ne_zero (by decide) cones D hD S g hg hind
  have hrun : countInMemoryProjected p B N' X v irr 1 fuel cones tries guesses =
      residue (D.reverse.map (lifted p B (fun C : Cone (m + 1) => C.coefficient) (fun C => List.ofFn fun i => C.rays i) pt)) tries guesses := by
    unfold countInMemoryProjected
    rw [decomposeCones_eq N' v irr 1 cones D hD]
    show (computePoints X fuel D.reverse >>= fun P => projectUpCones p B P >>= fun P => residue P tries guesses) = _
    rw [h1]
    show (projectUpCones p B _ >>= fun P => residue P tries guesses) = _
    rw [projectUpCones_map p B (fun C : Cone (m + 1) => C.coefficient) (fun C => List.ofFn fun i => C.rays i) pt]
    rfl
  rw [hrun]
  rcases c72_number p B (m + 1) (Nat.succ_ne_zero m) D.reverse (by simpa using hne) (fun C : Cone (m + 1) => C.coefficient)
    (fun C => List.ofFn fun i => C.rays i) pt (fun C _ => by simp) (by simpa using hint) (fun C => coneInd C.rays C.vertex) h2 S hS g' hg'
    (fun z => by
      rw [← hind' z, Int.cast_list_sum, List.map_map, List.map_reverse, List.sum_reverse]
      congr 1
      refine List.map_congr_left fun C _ => ?_
      simp only [Function.comp, coneInd]
      push_cast
      rfl) tries guesses with h | ⟨h, hz⟩
  · exact Or.inl h
  · refine Or.inr ⟨h, fun t ht => ?_⟩
    obtain ⟨C, hC, r, hr, e⟩ := hz t ht
    refine ⟨C, List.mem_reverse.1 hC, ?_⟩
    simp only [lifted, Preprocess.projectUp, List.mem_map, List.mem_ofFn] at hr
    obtain ⟨r', ⟨i, rfl⟩, rfl⟩ := hr
    exact ⟨i, e⟩

/-- **C72, the run** without equations. -/
theorem c72_run (N' : Ntl (m + 1)) (hN : N'.Ok) (X : Smith.Xgcd) (v : Variant)
    (irr : Cone (m + 1) → Fin (m + 1) → ℚ) (hirr : v = .irrationalPrimal → IrrOk irr) (fuel : ℕ) (hfuel : 1 < fuel)
    (cones : List ((Fin (m + 1) → ℚ) × List (Mat (m + 1)))) (D : List (Cone (m + 1)))
    (hD : delivered N' v irr 1 cones = some D) (hne : D ≠ []) (hint : ((m + 1 : ℕ) : ℤ) * D.length ≤ Piped.intMax)
    (S : List (Vec (m + 1))) (hS : S.Nodup) (g : Vec (m + 1) → ℚ) (hg : g ∈ negligible (m + 1))
    (hind : ∀ z, (((cones.map fun c => (c.2.map fun B => inputInd v c.1 B z).sum).sum : ℤ) : ℚ) = (if z ∈ S then 1 else 0) + g z)
    (tries : ℕ) (guesses : ℕ → Vec (m + 1)) :
    countInMemory N' X v irr 1 fuel cones tries guesses = .ok (S.length : ℤ) ∨
    countInMemory N' X v irr 1 fuel cones tries guesses = .error .fuel ∧ ∀ t < tries, ¬ GenericFor (guesses t) D := by
  have hready := delivered_ready N' hN v irr 1 one_ne_zero (by decide) fuel (by exact_mod_cast hfuel) cones D hD
  have key : countInMemory N' X v irr 1 fuel cones tries guesses =
      countInMemoryProjected 0 (fun j k => if j = k then 1 else 0) N' X v irr 1 fuel cones tries guesses := by
    obtain ⟨pt, h1, h2⟩ := computePoints_ok X fuel D.reverse (fun C hC => hready C (List.mem_reverse.1 hC))
      (fun C hC => delivered_unimodular N' hN v irr cones D hD C (List.mem_reverse.1 hC))
    unfold countInMemory countInMemoryProjected
    rw [decomposeCones_eq N' v irr 1 cones D hD]
    show (computePoints X fuel D.reverse >>= fun P => residue P tries guesses) =
      (computePoints X fuel D.reverse >>= fun P => projectUpCones _ _ P >>= fun P => residue P tries guesses)
    rw [h1]
    show residue _ tries guesses = (projectUpCones _ _ _ >>= fun P => residue P tries guesses)
    rw [projectUpCones_map _ _ (fun C : Cone (m + 1) => C.coefficient) (fun C => List.ofFn fun i => C.rays i) pt]
    show _ = residue _ tries guesses
    congr 1
    refine List.map_congr_left fun C _ => ?_
    exact (lifted_id (fun C : Cone (m + 1) => C.coefficient) (fun C => List.ofFn fun i => C.rays i) pt C).symm
  rw [key]
  rcases c72_run_projected 0 (fun j k => if j = k then 1 else 0) N' hN X v irr hirr fuel hfuel cones D hD hne hint S hS g hg hind tries guesses
    with h | ⟨h, hz⟩
  · exact Or.inl h
  · refine Or.inr ⟨h, fun t ht hgen => ?_⟩
    obtain ⟨C, hC, i, e⟩ := hz t ht
    refine hgen C hC i ?_
    rw [← e]
    unfold ip
    refine Finset.sum_congr rfl fun l _ => ?_
    simp

/-- **C72, larger indices.** With another maximal index the program stops with an assertion as soon as one of the cones is not unimodular; it never prints a
wrong number. -/
theorem c72_not_unimodular (N' : Ntl (m + 1)) (hN : N'.Ok) (X : Smith.Xgcd) (v : Variant)
    (irr : Cone (m + 1) → Fin (m + 1) → ℚ) (maxDet : ℤ) (h0 : maxDet ≠ 0) (hmax : maxDet ≤ Piped.intMax) (fuel : ℕ) (hfuel : maxDet < fuel)
    (cones : List ((Fin (m + 1) → ℚ) × List (Mat (m + 1)))) (D : List (Cone (m + 1)))
    (hD : delivered N' v irr maxDet cones = some D) (hlarge : ∃ C ∈ D, |C.rays.det| ≠ 1) (tries : ℕ) (guesses : ℕ → Vec (m + 1)) :
    countInMemory N' X v irr maxDet fuel cones tries guesses = .error .abort := by
  have hready := delivered_ready N' hN v irr maxDet h0 hmax fuel hfuel cones D hD
  obtain ⟨C, hC, hne⟩ := hlarge
  obtain ⟨P, h1, h2⟩ := computePoints_large X fuel D.reverse (fun C hC => hready C (List.mem_reverse.1 hC)) ⟨C, List.mem_reverse.2 hC, hne⟩
  unfold countInMemory
  rw [decomposeCones_eq N' v irr maxDet cones D hD]
  show (computePoints X fuel D.reverse >>= fun P => residue P tries guesses) = _
  rw [h1]
  exact residue_abort P h2 tries guesses

theorem projectUpCones_abort {d k : ℕ} (p : Vec (k + 1)) (basis : Fin d → Vec (k + 1)) (P : List (OffCone d)) (h : ∃ C ∈ P, C.points.length ≠ 1) :
    projectUpCones p basis P = .error .abort := by
  induction P with
  | nil => obtain ⟨C, hC, -⟩ := h; cases hC
  | cons C Cs ih =>
    unfold projectUpCones
    split
    · rename_i pt hpt
      obtain ⟨C', hC', hne⟩ := h
      rcases List.mem_cons.1 hC' with rfl | hC'
      · rw [hpt] at hne; exact absurd rfl hne
      · rw [ih ⟨C', hC', hne⟩]
    · rfl

/-- **C72, larger indices, with equations:** the assertions of the projection stop the program. -/
theorem c72_not_unimodular_projected {k : ℕ} (p : Vec (k + 1)) (basis : Fin (m + 1) → Vec (k + 1)) (N' : Ntl (m + 1)) (hN : N'.Ok) (X : Smith.Xgcd)
    (v : Variant) (irr : Cone (m + 1) → Fin (m + 1) → ℚ) (maxDet : ℤ) (h0 : maxDet ≠ 0) (hmax : maxDet ≤ Piped.intMax) (fuel : ℕ) (hfuel : maxDet < fuel)
    (cones : List ((Fin (m + 1) → ℚ) × List (Mat (m + 1)))) (D : List (Cone (m + 1)))
    (hD : delivered N' v irr maxDet cones = some D) (hlarge : ∃ C ∈ D, |C.rays.det| ≠ 1) (tries : ℕ) (guesses : ℕ → Vec (k + 1)) :
    countInMemoryProjected p basis N' X v irr maxDet fuel cones tries guesses = .error .abort := by
  have hready := delivered_ready N' hN v irr maxDet h0 hmax fuel hfuel cones D hD
  obtain ⟨C, hC, hne⟩ := hlarge
  obtain ⟨P, h1, h2⟩ := computePoints_large X fuel D.reverse (fun C hC => hready C (List.mem_reverse.1 hC)) ⟨C, List.mem_reverse.2 hC, hne⟩
  unfold countInMemoryProjected
  rw [decomposeCones_eq N' v irr maxDet cones D hD]
  show (computePoints X fuel D.reverse >>= fun P => projectUpCones p basis P >>= fun P => residue P tries guesses) = _
  rw [h1]
  show (projectUpCones p basis P >>= fun P => residue P tries guesses) = _
  rw [projectUpCones_abort p basis P h2]
  rfl

/-! ### Total correctness -/

theorem triangulation_nonempty {T : List (Mat n)} {K : Set (Fin n → ℝ)} (h : Triangulation T K) (h0 : (0 : Fin n → ℝ) ∈ K) : T ≠ [] := by
  rintro rfl
  obtain ⟨B, hB, -⟩ := (h.covers 0).1 h0
  cases hB

theorem normal_zero (a : Fin N → Vec n) (b : Fin N → ℚ) (v : Fin n → ℚ) : (0 : Fin n → ℝ) ∈ normal a b v :=
  ⟨fun _ => 0, fun _ => le_rfl, fun _ _ => rfl, fun _ => by simp⟩

theorem tangent_zero (a : Fin N → Vec n) (b : Fin N → ℚ) (v : Fin n → ℚ) : (0 : Fin n → ℝ) ∈ tangent a b v := by
  intro i _
  unfold dot
  simp

theorem input_nonempty (a : Fin N → Vec n) (b : Fin N → ℚ) (cones : List ((Fin n → ℚ) × List (Mat n))) (hne : cones ≠ [])
    (hT : ∀ c ∈ cones, Triangulation c.2 (normal a b c.1)) : ∃ c ∈ cones, c.2 ≠ [] := by
  obtain ⟨c, cs, rfl⟩ := List.exists_cons_of_ne_nil hne
  exact ⟨c, List.mem_cons_self, triangulation_nonempty (hT c List.mem_cons_self) (normal_zero a b c.1)⟩

/-- From a run that can only end with the number or go on searching. -/
theorem run_ends {r : Except Fail ℤ} {s : ℤ} {tries : ℕ} {Q : ℕ → Prop} (h : r = .ok s ∨ r = .error .fuel ∧ ∀ t < tries, ¬ Q t) (t : ℕ)
    (ht : t < tries) (hQ : Q t) : r = .ok s := by
  rcases h with h | ⟨-, h⟩
  · exact h
  · exact absurd hQ (h t ht)

/-- **C72, total correctness in dual mode.** If the lattice reduction always finds short vectors, `count --memsave=no` ends with the number of lattice points of a
non-empty polytope at the latest when a vector is drawn that is not orthogonal to any ray — however many cones there are, as long as
`noGsPerC*noCones` fits into an `int`. -/
theorem c72_total_dual (N' : Ntl (m + 1)) (hN : N'.Ok) (hs : ShortVectors N') (X : Smith.Xgcd) (irr : Cone (m + 1) → Fin (m + 1) → ℚ)
    (fuel : ℕ) (hfuel : 1 < fuel)
    (a : Fin N → Vec (m + 1)) (b : Fin N → ℚ) (S : List (Vec (m + 1))) (hS : LatticePoints a b S)
    (cones : List ((Fin (m + 1) → ℚ) × List (Mat (m + 1)))) (hne : cones ≠ []) (hvs : IsVertexList a b (cones.map (·.1)))
    (hT : ∀ c ∈ cones, Triangulation c.2 (normal a b c.1)) :
    ∃ D : List (Cone (m + 1)), delivered N' .dual irr 1 cones = some D ∧ (∃ lam, GenericFor lam D) ∧
      (((m + 1 : ℕ) : ℤ) * D.length ≤ Piped.intMax → ∀ (tries : ℕ) (guesses : ℕ → Vec (m + 1)) (t : ℕ), t < tries → GenericFor (guesses t) D →
        countInMemory N' X .dual irr 1 fuel cones tries guesses = .ok (S.length : ℤ)) := by
  obtain ⟨D, hD⟩ := delivered_dual N' hs irr 1 le_rfl cones fun c hc => (hT c hc).simplicial
  obtain ⟨g, hg, hind⟩ := dual_indicators a b cones hvs hT S hS .dual (by decide)
  refine ⟨D, hD, c42_generic_vector_exists N' hN .dual irr 1 one_ne_zero (by decide) cones D hD, fun hint tries guesses t ht hgen => ?_⟩
  exact run_ends (c72_run N' hN X .dual irr (by intro h; cases h) fuel hfuel cones D hD
    (delivered_nonempty N' hN .dual irr 1 cones (input_nonempty a b cones hne hT) D hD) hint S hS.nodup g hg hind tries guesses) t ht hgen

/-- **C72 in dual mode with the shortest rows**, the condition on the number of cones in terms of the input (C71). -/
theorem c72_total_dual_shortest (N' : Ntl (m + 1)) (hN : N'.Ok) (hR : N'.ShortestRow) (X : Smith.Xgcd) (irr : Cone (m + 1) → Fin (m + 1) → ℚ)
    (fuel : ℕ) (hfuel : 1 < fuel)
    (a : Fin N → Vec (m + 1)) (b : Fin N → ℚ) (S : List (Vec (m + 1))) (hS : LatticePoints a b S)
    (cones : List ((Fin (m + 1) → ℚ) × List (Mat (m + 1)))) (hne : cones ≠ []) (hvs : IsVertexList a b (cones.map (·.1)))
    (hT : ∀ c ∈ cones, Triangulation c.2 (normal a b c.1)) (d : Mat (m + 1) → ℕ)
    (hd : ∀ c ∈ cones, ∀ B ∈ c.2, Nat.size B.det.natAbs * m ^ d B ≤ (m + 1) ^ d B)
    (hsize : (m + 1) * (cones.map fun c => (c.2.map fun B => (m + 1) ^ d B).sum).sum ≤ Piped.intMax.toNat) :
    ∃ D : List (Cone (m + 1)), (∃ lam, GenericFor lam D) ∧
      ∀ (tries : ℕ) (guesses : ℕ → Vec (m + 1)) (t : ℕ), t < tries → GenericFor (guesses t) D →
        countInMemory N' X .dual irr 1 fuel cones tries guesses = .ok (S.length : ℤ) := by
  obtain ⟨D, hD, hg, h⟩ := c72_total_dual N' hN (shortVectors_shortestRow N' hN hR) X irr fuel hfuel a b S hS cones hne hvs hT
  refine ⟨D, hg, h ?_⟩
  have h1 := c71_barvinok N' hN hR 1 le_rfl .dual irr cones D hD d hd
  have h2 : (m + 1) * D.length ≤ Piped.intMax.toNat := (Nat.mul_le_mul_left _ h1).trans hsize
  have h3 : ((Piped.intMax.toNat : ℕ) : ℤ) = Piped.intMax := by decide
  rw [← h3]
  exact_mod_cast h2

/-- **C72, total correctness of the irrational primal variant.** -/
theorem c72_total_irrationalPrimal (N' : Ntl (m + 1)) (hN : N'.Ok) (hR : N'.ShortestRow) (X : Smith.Xgcd) (depth : Cone (m + 1) → ℕ)
    (hd : ∀ C, Wf C → EstimateOk depth C) (fuel : ℕ) (hfuel : 1 < fuel)
    (a : Fin N → Vec (m + 1)) (b : Fin N → ℚ) (S : List (Vec (m + 1))) (hS : LatticePoints a b S)
    (cones : List ((Fin (m + 1) → ℚ) × List (Mat (m + 1)))) (hne : cones ≠ []) (hvs : IsVertexList a b (cones.map (·.1)))
    (hT : ∀ c ∈ cones, Triangulation c.2 (normal a b c.1)) :
    ∃ D : List (Cone (m + 1)), delivered N' .irrationalPrimal (irrVertex depth) 1 cones = some D ∧ (∃ lam, GenericFor lam D) ∧
      (((m + 1 : ℕ) : ℤ) * D.length ≤ Piped.intMax → ∀ (tries : ℕ) (guesses : ℕ → Vec (m + 1)) (t : ℕ), t < tries → GenericFor (guesses t) D →
        countInMemory N' X .irrationalPrimal (irrVertex depth) 1 fuel cones tries guesses = .ok (S.length : ℤ)) := by
  obtain ⟨D, hD⟩ := delivered_of_single N' .irrationalPrimal (irrVertex depth) 1 cones
    fun c hc B hB out md => single_irrationalPrimal N' hN hR depth hd 1 le_rfl B ((hT c hc).simplicial B hB) c.1 out md
  obtain ⟨g, hg, hind⟩ := dual_indicators a b cones hvs hT S hS .irrationalPrimal (by decide)
  refine ⟨D, hD, c42_generic_vector_exists N' hN .irrationalPrimal _ 1 one_ne_zero (by decide) cones D hD, fun hint tries guesses t ht hgen => ?_⟩
  refine run_ends (c72_run N' hN X .irrationalPrimal _ (fun _ C z hC => ?_) fuel hfuel cones D hD
    (delivered_nonempty N' hN .irrationalPrimal _ 1 cones (input_nonempty a b cones hne hT) D hD) hint S hS.nodup g hg hind tries guesses) t ht hgen
  obtain ⟨w, hw, hsame, -⟩ := c63_simplicial depth C hC (Nat.succ_pos m)
  have : irrVertex depth C = w := by unfold irrVertex; rw [hw]; rfl
  rw [this]
  exact hsame z

/-- **C72, total correctness of the irrational all-primal variant.** -/
theorem c72_total_irrationalAllPrimal (N' : Ntl (m + 1)) (hN : N'.Ok) (hR : N'.ShortestRow) (X : Smith.Xgcd)
    (irr : Cone (m + 1) → Fin (m + 1) → ℚ) (lp : Solver (m + 1)) (hlp : SolverOk lp) (depth : VertexCone (m + 1) → ℕ)
    (hd : ∀ C, EstimateGeneralOk (depth C) C.rays) (fuel : ℕ) (hfuel : 1 < fuel)
    (a : Fin N → Vec (m + 1)) (b : Fin N → ℚ) (S : List (Vec (m + 1))) (hS : LatticePoints a b S)
    (cones : List (VertexCone (m + 1))) (hne : cones ≠ []) (hvs : IsVertexList a b (cones.map (·.vertex))) (hC : ∀ C ∈ cones, TangentCone a b C) :
    ∃ moved, irrationalizeCones lp depth cones = some moved ∧
      ∃ D : List (Cone (m + 1)), delivered N' .irrationalAllPrimal irr 1 moved = some D ∧ (∃ lam, GenericFor lam D) ∧
      (((m + 1 : ℕ) : ℤ) * D.length ≤ Piped.intMax → ∀ (tries : ℕ) (guesses : ℕ → Vec (m + 1)) (t : ℕ), t < tries → GenericFor (guesses t) D →
        countInMemory N' X .irrationalAllPrimal irr 1 fuel moved tries guesses = .ok (S.length : ℤ)) := by
  have hd1 : ∀ C, 1 ≤ depth C := by
    intro C
    obtain ⟨t, ht, -⟩ := hd C
    omega
  obtain ⟨moved, hm, hs⟩ := allPrimal_cones a b lp hlp depth hd1 cones hC
  obtain ⟨D, hD⟩ := delivered_of_single N' .irrationalAllPrimal irr 1 moved (by
    intro c hc B hB out md
    obtain ⟨C, hCm, hsim, hw⟩ := moved_spec lp depth cones moved hm c hc
    have ht := hC C hCm
    obtain ⟨u, hu⟩ := inner_point a b C ht
    rw [hsim] at hB
    exact single_allPrimal N' hN hR irr lp hlp (depth C) C.rays C.facets (hd C) ht.facets_ne ht.facet_ne C.vertex u hu c.1 hw 1 le_rfl B
      (ht.triangulated.simplicial B hB) (ht.rays B hB) out md)
  have hin : ∃ c ∈ moved, c.2 ≠ [] := by
    obtain ⟨C, cs, rfl⟩ := List.exists_cons_of_ne_nil hne
    have hm' := hm
    unfold irrationalizeCones at hm'
    split at hm'
    · cases hm'
    · split at hm'
      · cases hm'
      · cases hm'
        exact ⟨_, List.mem_cons_self, triangulation_nonempty (hC C List.mem_cons_self).triangulated (tangent_zero a b _)⟩
  refine ⟨moved, hm, D, hD, c42_generic_vector_exists N' hN .irrationalAllPrimal _ 1 one_ne_zero (by decide) moved D hD,
    fun hint tries guesses t ht hgen => ?_⟩
  obtain ⟨g, hg, hv⟩ := vertex_sum a b _ hvs S hS
  refine run_ends (c72_run N' hN X .irrationalAllPrimal irr (by intro h; cases h) fuel hfuel moved D hD
    (delivered_nonempty N' hN .irrationalAllPrimal irr 1 moved hin D hD) hint S hS.nodup g hg (fun z => ?_) tries guesses) t ht hgen
  rw [← hv z, List.map_map]
  exact congrArg _ (hs z)

/-! ### Equations -/

/-- Vectors not orthogonal to finitely many non-zero vectors exist. -/
theorem generic_exists (L : List (Vec (k + 1))) (hL : ∀ r ∈ L, r ≠ 0) : ∃ lam : Vec (k + 1), ∀ r ∈ L, ip lam r ≠ 0 := by
  classical
  let P : Vec (k + 1) → Polynomial ℤ := fun r => ∑ i : Fin (k + 1), Polynomial.C (r i) * Polynomial.X ^ (i : ℕ)
  have hP : ∀ r ∈ L, P r ≠ 0 := by
    intro r hr h0
    obtain ⟨i, hi⟩ := Function.ne_iff.1 (hL r hr)
    have := congrArg (Polynomial.coeff · (i : ℕ)) h0
    simp only [P, Polynomial.finsetSum_coeff, Polynomial.coeff_C_mul, Polynomial.coeff_X_pow, Polynomial.coeff_zero] at this
    rw [Finset.sum_eq_single i] at this
    · simp at this; exact hi this
    · intro j _ hj; rw [if_neg (fun e => hj (Fin.ext e.symm)), mul_zero]
    · simp
  have hprod : (L.map P).prod ≠ 0 := by
    apply List.prod_ne_zero
    intro h0
    obtain ⟨r, hr, e⟩ := List.mem_map.1 h0
    exact hP r hr e
  obtain ⟨t, ht⟩ : ∃ t : ℤ, ((L.map P).prod).eval t ≠ 0 := by
    by_contra hne
    push Not at hne
    exact hprod (Polynomial.funext fun t => by rw [hne t, Polynomial.eval_zero])
  refine ⟨fun i => t ^ (i : ℕ), fun r hr h0 => ht ?_⟩
  rw [Polynomial.eval_list_prod, List.map_map]
  apply List.prod_eq_zero
  refine List.mem_map.2 ⟨r, hr, ?_⟩
  simp only [Function.comp, P, Polynomial.eval_finsetSum, Polynomial.eval_mul, Polynomial.eval_C, Polynomial.eval_pow, Polynomial.eval_X]
  rw [← h0]
  exact Finset.sum_congr rfl fun k _ => mul_comm _ _

/-- The basis found by the elimination is independent. -/
theorem basis_injective {q d : ℕ} {hfuel : ℕ} {eqs : Fin q → Preprocess.Row n} {ineqs : List (Preprocess.Row n)} {cost : Fin n → ℤ} {dil : ℤ}
    (hi : ineqs ≠ []) (hmn : q ≤ n)
    {out : List (Preprocess.Row d)} {p : Fin n → ℤ} {B : Fin d → Fin n → ℤ} {newCost : Fin d → ℤ}
    (hrun : Preprocess.preprocessProblem hfuel eqs ineqs cost dil = .reduced d out p B newCost) (u : Fin d → ℤ) (hu : u ≠ 0) :
    (fun l => ∑ j, B j l * u j) ≠ 0 := by
  rw [Preprocess.preprocess_cases hi hmn] at hrun
  split at hrun
  · simp at hrun
  rename_i s hs'
  have h := Preprocess.ihermite_spec hs'
  rw [Preprocess.eliminate_eq hmn h] at hrun
  split at hrun
  · simp at hrun
  split at hrun
  · simp at hrun
  rename_i out' hout
  cases out' with
  | nil => simp [Preprocess.checkRows] at hrun
  | cons r rs =>
    simp only [Preprocess.checkRows] at hrun
    cases hrun
    intro h0
    apply hu
    apply Preprocess.extend_inj h.hn
    apply Preprocess.unimodular_inj h.unimodular
    funext k
    rw [← Preprocess.basis_sum s h.hn, ← Preprocess.basis_sum s h.hn]
    have := congrFun h0 k
    simp only [Pi.zero_apply, zero_mul, Finset.sum_const_zero] at this ⊢
    rw [← this]
    exact Finset.sum_congr rfl fun j _ => mul_comm _ _

/-- **C72 with C67.** A polytope given by equations and inequalities: the elimination, the decomposition, putting the cones back into the original coordinates and
the final computation there end with the number of integer points of the (dilated) polytope. -/
theorem c72_total_projected {q hfuel : ℕ} {eqs : Fin q → Preprocess.Row (k + 1)} {ineqs : List (Preprocess.Row (k + 1))} {cost : Fin (k + 1) → ℤ} {dil : ℤ}
    (hi : ineqs ≠ []) (hmn : q ≤ k + 1) (hs : Preprocess.IntSolvable eqs ∨ Preprocess.Independent eqs) {out : List (Preprocess.Row (m + 1))}
    {p : Fin (k + 1) → ℤ} {B : Fin (m + 1) → Fin (k + 1) → ℤ} {newCost : Fin (m + 1) → ℤ}
    (hrun : Preprocess.preprocessProblem hfuel eqs ineqs cost dil = .reduced (m + 1) out p B newCost)
    (N' : Ntl (m + 1)) (hN : N'.Ok) (hsv : ShortVectors N') (X : Smith.Xgcd) (irr : Cone (m + 1) → Fin (m + 1) → ℚ)
    (fuel : ℕ) (hfuel' : 1 < fuel)
    (S : List (Vec (m + 1))) (hS : LatticePoints (Preprocess.rowNormals out) (Preprocess.rowBounds out) S)
    (cones : List ((Fin (m + 1) → ℚ) × List (Mat (m + 1)))) (hne : cones ≠ [])
    (hvs : IsVertexList (Preprocess.rowNormals out) (Preprocess.rowBounds out) (cones.map (·.1)))
    (hT : ∀ c ∈ cones, Triangulation c.2 (normal (Preprocess.rowNormals out) (Preprocess.rowBounds out) c.1)) :
    ∃ D : List (Cone (m + 1)), delivered N' .dual irr 1 cones = some D ∧ 
      (∃ lam, ∀ C ∈ D, ∀ i, ip lam (fun l => ∑ j, B j l * C.rays i j) ≠ 0) ∧
      (((m + 1 : ℕ) : ℤ) * D.length ≤ Piped.intMax → ∀ (tries : ℕ) (guesses : ℕ → Vec (k + 1)) (t : ℕ), t < tries →
        (∀ C ∈ D, ∀ i, ip (guesses t) (fun l => ∑ j, B j l * C.rays i j) ≠ 0) →
        countInMemoryProjected p B N' X .dual irr 1 fuel cones tries guesses = .ok ((Preprocess.solutions eqs ineqs dil).ncard : ℤ)) := by
  obtain ⟨D, hD⟩ := delivered_dual N' hsv irr 1 le_rfl cones fun c hc => (hT c hc).simplicial
  obtain ⟨g, hg, hind⟩ := dual_indicators _ _ cones hvs hT S hS .dual (by decide)
  refine ⟨D, hD, ?_, fun hint tries guesses t ht hgen => ?_⟩
  · obtain ⟨lam, hlam⟩ := generic_exists (D.flatMap fun C => (List.finRange (m + 1)).map fun i => fun l => ∑ j, B j l * C.rays i j) (by
      intro r hr
      obtain ⟨C, hC, h⟩ := List.mem_flatMap.1 hr
      obtain ⟨i, -, rfl⟩ := List.mem_map.1 h
      obtain ⟨F, -, hG⟩ := (delivered_ready N' hN .dual irr 1 one_ne_zero (by decide) 2 (by norm_num) cones D hD C hC).facets
      exact basis_injective hi hmn hrun _ (row_ne_zero C.rays hG.ne i))
    exact ⟨lam, fun C hC i => hlam _ (List.mem_flatMap.2 ⟨C, hC, List.mem_map.2 ⟨i, List.mem_finRange i, rfl⟩⟩)⟩
  · rw [← Preprocess.c67_ncard hi hmn hs hrun, Preprocess.length_ncard hS]
    rcases c72_run_projected p B N' hN X .dual irr (by intro h; cases h) fuel hfuel' cones D hD
      (delivered_nonempty N' hN .dual irr 1 cones (input_nonempty _ _ cones hne hT) D hD) hint S hS.nodup g hg hind tries guesses with h | ⟨-, h⟩
    · exact h
    · obtain ⟨C, hC, i, e⟩ := h t ht
      exact absurd e (hgen C hC i)

/-! ### The hypotheses are satisfiable -/

/-- `count --memsave=no` on the triangle with corners `(0,0)`, `(2,0)`, `(0,1)`. -/
example (X : Smith.Xgcd) : ∃ (N' : Ntl 2) (lam : Vec 2), N'.Ok ∧ N'.ShortestRow ∧
    countInMemory (m := 1) N' X .dual (fun C => C.vertex) 1 2 Brion.Triangle.cones 1 (fun _ => lam) = .ok 4 := by
  obtain ⟨N', hN, hR⟩ := Barvinok.shortestRow_satisfiable 2
  obtain ⟨D, ⟨lam, hlam⟩, h⟩ := c72_total_dual_shortest (m := 1) N' hN hR X (fun C => C.vertex) 2 (by norm_num)
    Brion.Triangle.a Brion.Triangle.b Brion.Triangle.S Brion.Triangle.lattice Brion.Triangle.cones (by decide +kernel) Brion.Triangle.vertices
    Brion.Triangle.triangulations (fun _ => 1) (by decide +kernel) (by decide +kernel)
  exact ⟨N', lam, hN, hR, h 1 (fun _ => lam) 0 (by norm_num) hlam⟩

/-- `Residue` itself on the segment `[0,2]`: the half lines `0 + ⟨1⟩` and `2 + ⟨-1⟩`.  LOOP 1 finds the vector in the second round. -/
example : residue (m := 0) [⟨1, [![0]], [![1]]⟩, ⟨1, [![2]], [![-1]]⟩] 0 (fun _ => 0) = .ok 3 := by decide +kernel

end Verif.PolySubst
