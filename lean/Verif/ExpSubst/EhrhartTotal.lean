import Verif.ExpSubst.Ehrhart
import Verif.ExpSubst.Total

/-!
# Ehrhart polynomials: decomposition, restart and the computed coefficients together (C69)
-/

namespace Verif.ExpSubst

open Verif.Barvinok Verif.Barvinok.Spec

variable {n m : ℕ}

/-! ### Model -/

/-- A vertex cone in Ehrhart mode: the vertex of the cone, `ehrhart_vertex`, and the ray matrices of its triangulation (`struct Vertex`,
cone.h:53–62; the copies made during triangulation and decomposition copy both vectors, cone.h:57–58). -/
structure EhrhartCone (n : ℕ) where
  vertex : Fin n → ℚ
  ehrhart : Vec n
  simplices : List (Mat n)

/-- The status `Exponential_Ehrhart_Parameters::ConsumeCone` returns (ExponentialEhrhart.cpp:34–70): −1 (`false`) exactly on a
`NotGenericException`. -/
def acceptEhrhart (X : Smith.Xgcd) (generic : Vec (m + 1)) (fuel : ℕ) (ev : Vec (m + 1)) (C : Cone (m + 1)) : Bool :=
  match ehrhartSingle X generic C ev fuel with
  | .error .notGeneric => false
  | _ => true

/-- The inner loop of `barvinokDecomposition_List` (dec.cpp:143–153), as `decompositionList`, but every delivered cone is recorded with the
`ehrhart_vertex` it inherited; the consumer `acc` sees both. -/
def decompositionE [NeZero n] (N : Ntl n) (v : Variant) (irr : Cone n → Fin n → ℚ) (maxDet : ℤ) (acc : Vec n → Cone n → Bool) :
    List (EhrhartCone n) → List (Cone n × Vec n) → ℕ → Except Fail (List (Cone n × Vec n))
  | [], out, _ => .ok out
  | C :: Cs, out, maxDepth =>
    match barvinokDecompositionSingle ⟨N, v.mode, maxDet, fun _ D => acc C.ehrhart D⟩ v irr C.vertex C.simplices [] maxDepth with
    | .done true new maxDepth => decompositionE N v irr maxDet acc Cs (out ++ new.map fun D => (D, C.ehrhart)) maxDepth
    | .done false _ _ => .error .notGeneric
    | .notIrrational => .error .abort
    | .abort => .error .abort

/-- One round of the do-while loop of dec.cpp:137–163 with the Ehrhart consumer: `InitializeComputation` sets all coefficients to zero
(ExponentialEhrhart.cpp:26–32), then all cones are decomposed and their contributions added.  (The contributions are added after the
decomposition instead of cone by cone, as in `countOnce`.) -/
def ehrhartOnce (N : Ntl (m + 1)) (X : Smith.Xgcd) (v : Variant) (irr : Cone (m + 1) → Fin (m + 1) → ℚ) (maxDet : ℤ) (fuel : ℕ)
    (cones : List (EhrhartCone (m + 1))) (generic : Vec (m + 1)) : Except Fail (ℕ → ℚ) :=
  match decompositionE N v irr maxDet (acceptEhrhart X generic fuel) cones [] 0 with
  | .ok out => ehrhartSum X generic fuel out (fun _ => 0)
  | .error e => .error e

/-- `decomposeAndComputeEhrhartPolynomial` (ExponentialEhrhart.cpp:72–78) with the retry loop of `barvinokDecomposition_List`
(dec.cpp:137–163); `guesses` are the vectors `guess_generic_vector` returns one after the other. -/
def decomposeAndEhrhart (N : Ntl (m + 1)) (X : Smith.Xgcd) (v : Variant) (irr : Cone (m + 1) → Fin (m + 1) → ℚ) (maxDet : ℤ) (fuel : ℕ)
    (cones : List (EhrhartCone (m + 1))) : (tries : ℕ) → (guesses : ℕ → Vec (m + 1)) → Except Fail (ℕ → ℚ)
  | 0, _ => .error .fuel
  | t + 1, guesses =>
    match ehrhartOnce N X v irr maxDet fuel cones (guesses 0) with
    | .ok coeffs => .ok coeffs
    | .error .notGeneric => decomposeAndEhrhart N X v irr maxDet fuel cones t (fun i => guesses (i + 1))
    | .error e => .error e

/-! ### The consumer rejects the same cones as the counting consumer -/

theorem accept_eq (X : Smith.Xgcd) (lam : Vec (m + 1)) (fuel : ℕ) (ev : Vec (m + 1)) (C : Cone (m + 1)) :
    acceptEhrhart X lam fuel ev C = acceptExp X lam fuel C := by
  unfold acceptEhrhart acceptExp ehrhartSingle residueSingle
  cases residueWeights lam (List.ofFn fun i => C.rays i) with
  | error e => cases e <;> rfl
  | ok w =>
    show (match (coneScalarProducts X lam C fuel >>= _ : Except Fail (ℕ → ℚ)) with | .error .notGeneric => false | _ => true) =
      (match (coneScalarProducts X lam C fuel >>= _ : Except Fail ℚ) with | .error .notGeneric => false | _ => true)
    cases coneScalarProducts X lam C fuel with
    | ok l => rfl
    | error e => cases e <;> rfl

/-! ### Translations -/

theorem negligible_shift {g : Vec n → ℚ} (hg : g ∈ negligible n) (u : Vec n) : (fun z => g (z - u)) ∈ negligible n := by
  induction hg using Submodule.span_induction with
  | mem f hf =>
    obtain ⟨l, hl, h⟩ := hf
    refine Submodule.subset_span ⟨l, hl, fun p => ?_⟩
    show f (p + l - u) = f (p - u)
    rw [add_sub_right_comm, h]
  | zero => exact Submodule.zero_mem _
  | add f g _ _ hf hg => exact Submodule.add_mem _ hf hg
  | smul c f _ hf => exact Submodule.smul_mem _ c hf

theorem rel_shift (z : Vec n) (v : Fin n → ℚ) (ev : Vec n) (N : ℤ) : rel z (fun k => v k + N * ev k) = rel (z - N • ev) v := by
  funext k
  simp only [rel, Pi.sub_apply, Pi.smul_apply, smul_eq_mul]
  push_cast
  ring

theorem inputInd_shift (v : Variant) (vertex : Fin (m + 1) → ℚ) (ev : Vec (m + 1)) (N : ℤ) (B : Mat (m + 1)) (z : Vec (m + 1)) :
    inputInd v (fun k => vertex k + N * ev k) B z = inputInd v vertex B (z - N • ev) := by
  unfold inputInd
  rw [rel_shift]

/-! ### The delivered cones -/

/-- What the recorded cones of a successful run satisfy. -/
structure GoodE (fuel : ℕ) (lam : Vec (m + 1)) (target : ℤ → Vec (m + 1) → ℤ) (new : List (Cone (m + 1) × Vec (m + 1))) : Prop where
  ready : ∀ c ∈ new, Ready fuel c.1
  generic : ∀ c ∈ new, ∀ i, ∑ k, lam k * c.1.rays i k ≠ 0
  sum : ∀ N : ℤ, (fun z => (((new.map fun c => c.1.coefficient * ind (cone c.1.rays) (rel z fun k => c.1.vertex k + N * c.2 k)).sum -
    target N z : ℤ) : ℚ)) ∈ negligible (m + 1)

theorem Good.tag {fuel : ℕ} {lam : Vec (m + 1)} {t : Vec (m + 1) → ℤ} {new : List (Cone (m + 1))} (h : Good fuel lam t new)
    (ev : Vec (m + 1)) : GoodE fuel lam (fun N z => t (z - N • ev)) (new.map fun D => (D, ev)) := by
  refine ⟨?_, ?_, fun N => ?_⟩
  · intro c hc
    obtain ⟨D, hD, rfl⟩ := List.mem_map.1 hc
    exact h.ready D hD
  · intro c hc
    obtain ⟨D, hD, rfl⟩ := List.mem_map.1 hc
    exact h.generic D hD
  · have := negligible_shift h.sum (N • ev)
    convert this using 1
    funext z
    rw [List.map_map]
    simp only [Function.comp_def, rel_shift]

theorem GoodE.append {fuel : ℕ} {lam : Vec (m + 1)} {t1 t2 : ℤ → Vec (m + 1) → ℤ} {n1 n2 : List (Cone (m + 1) × Vec (m + 1))}
    (h1 : GoodE fuel lam t1 n1) (h2 : GoodE fuel lam t2 n2) : GoodE fuel lam (fun N z => t1 N z + t2 N z) (n1 ++ n2) := by
  refine ⟨fun D hD => ?_, fun D hD => ?_, fun N => ?_⟩
  · exact (List.mem_append.mp hD).elim (h1.ready D) (h2.ready D)
  · exact (List.mem_append.mp hD).elim (h1.generic D) (h2.generic D)
  · have := Submodule.add_mem _ (h1.sum N) (h2.sum N)
    convert this using 1
    funext z
    rw [List.map_append, List.sum_append]
    push_cast
    simp only [Pi.add_apply]
    ring

theorem goodE_nil (fuel : ℕ) (lam : Vec (m + 1)) : GoodE fuel lam (fun _ _ => 0) [] := by
  refine ⟨by simp, by simp, fun N => ?_⟩
  convert Submodule.zero_mem (negligible (m + 1)) using 1
  funext z
  simp

theorem decompositionE_good (N : Ntl (m + 1)) (hN : N.Ok) (X : Smith.Xgcd) (v : Variant)
    (irr : Cone (m + 1) → Fin (m + 1) → ℚ) (hirr : v = .irrationalPrimal → IrrOk irr) (maxDet : ℤ)
    (h0 : maxDet ≠ 0) (hmax : maxDet ≤ Piped.intMax) (fuel : ℕ) (hfuel : maxDet < fuel) (lam : Vec (m + 1))
    (cones : List (EhrhartCone (m + 1))) : ∀ (out : List (Cone (m + 1) × Vec (m + 1))) (md : ℕ) {out' : List (Cone (m + 1) × Vec (m + 1))},
    decompositionE N v irr maxDet (acceptEhrhart X lam fuel) cones out md = .ok out' →
    ∃ new, out' = out ++ new ∧ GoodE fuel lam (fun M z => (cones.map fun c => (c.simplices.map fun B =>
      inputInd v (fun k => c.vertex k + M * c.ehrhart k) B z).sum).sum) new := by
  induction cones with
  | nil =>
    intro out md out' h
    unfold decompositionE at h
    cases h
    exact ⟨[], by simp, by simpa using goodE_nil fuel lam⟩
  | cons C Cs ih =>
    intro out md out' h
    unfold decompositionE at h
    split at h
    · rename_i new1 md1 h1
      simp only [accept_eq] at h1
      obtain ⟨new, e, g1⟩ := decomposition_good N hN X v irr hirr maxDet h0 hmax fuel hfuel lam C.vertex C.simplices [] md h1
      rw [List.nil_append] at e
      subst e
      obtain ⟨new2, rfl, g2⟩ := ih _ _ h
      refine ⟨(new1.map fun D => (D, C.ehrhart)) ++ new2, by simp, ?_⟩
      have := (g1.tag C.ehrhart).append g2
      simpa only [List.map_cons, List.sum_cons, inputInd_shift] using this
    · cases h
    · cases h
    · cases h

/-- **C69, one round.** If a round of the Ehrhart computation ends with coefficients, then for every dilation factor `M` for which the indicators
of the vertex cones, with their vertices moved by `M` times their `ehrhart_vertex`, add up to that of a finite set `S` (up to functions
with lines), the polynomial takes the value `|S|` at `M`. -/
theorem c69_once (N : Ntl (m + 1)) (hN : N.Ok) (X : Smith.Xgcd) (v : Variant) (irr : Cone (m + 1) → Fin (m + 1) → ℚ)
    (hirr : v = .irrationalPrimal → IrrOk irr) (maxDet : ℤ) (h0 : maxDet ≠ 0) (hmax : maxDet ≤ Piped.intMax) (fuel : ℕ) (hfuel : maxDet < fuel)
    (cones : List (EhrhartCone (m + 1))) (lam : Vec (m + 1)) (coeffs : ℕ → ℚ)
    (h : ehrhartOnce N X v irr maxDet fuel cones lam = .ok coeffs)
    (M : ℤ) (S : List (Vec (m + 1))) (hS : S.Nodup) (g : Vec (m + 1) → ℚ) (hg : g ∈ negligible (m + 1))
    (hind : ∀ z, (((cones.map fun c => (c.simplices.map fun B => inputInd v (fun k => c.vertex k + M * c.ehrhart k) B z).sum).sum : ℤ) : ℚ) =
      (if z ∈ S then 1 else 0) + g z) :
    ∑ k ∈ Finset.range (m + 2), coeffs k * (M : ℚ) ^ k = S.length := by
  unfold ehrhartOnce at h
  split at h
  · rename_i out hrun
    obtain ⟨new, e, hgood⟩ := decompositionE_good N hN X v irr hirr maxDet h0 hmax fuel hfuel lam cones [] 0 hrun
    rw [List.nil_append] at e
    subst e
    obtain ⟨c, hc, hval⟩ := c44_ehrhart X lam fuel out hgood.ready hgood.generic
    rw [hc] at h
    cases h
    refine hval M S hS _ (Submodule.add_mem _ hg (hgood.sum M)) fun z => ?_
    have := hind z
    push_cast at this ⊢
    simp only [Pi.add_apply]
    linarith
  · cases h

/-- **C69, restarts.** The same for the whole loop, whatever vectors are tried: nothing of a failed round is carried over. -/
theorem c69_restart (N : Ntl (m + 1)) (hN : N.Ok) (X : Smith.Xgcd) (v : Variant) (irr : Cone (m + 1) → Fin (m + 1) → ℚ)
    (hirr : v = .irrationalPrimal → IrrOk irr) (maxDet : ℤ) (h0 : maxDet ≠ 0) (hmax : maxDet ≤ Piped.intMax) (fuel : ℕ) (hfuel : maxDet < fuel)
    (cones : List (EhrhartCone (m + 1))) (tries : ℕ) (guesses : ℕ → Vec (m + 1)) (coeffs : ℕ → ℚ)
    (h : decomposeAndEhrhart N X v irr maxDet fuel cones tries guesses = .ok coeffs)
    (M : ℤ) (S : List (Vec (m + 1))) (hS : S.Nodup) (g : Vec (m + 1) → ℚ) (hg : g ∈ negligible (m + 1))
    (hind : ∀ z, (((cones.map fun c => (c.simplices.map fun B => inputInd v (fun k => c.vertex k + M * c.ehrhart k) B z).sum).sum : ℤ) : ℚ) =
      (if z ∈ S then 1 else 0) + g z) :
    ∑ k ∈ Finset.range (m + 2), coeffs k * (M : ℚ) ^ k = S.length := by
  induction tries generalizing guesses with
  | zero => cases h
  | succ t ih =>
    unfold decomposeAndEhrhart at h
    split at h
    · rename_i c hc
      cases h
      exact c69_once N hN X v irr hirr maxDet h0 hmax fuel hfuel cones (guesses 0) _ hc M S hS g hg hind
    · exact ih _ h
    · cases h

/-! ### Which vectors succeed -/

/-- The decomposition without a consumer that can reject, with the inherited vectors. -/
def deliveredE [NeZero n] (N : Ntl n) (v : Variant) (irr : Cone n → Fin n → ℚ) (maxDet : ℤ) (cones : List (EhrhartCone n)) :
    Except Fail (List (Cone n × Vec n)) := decompositionE N v irr maxDet (fun _ _ => true) cones [] 0

/-- The vector is not orthogonal to any ray of the recorded cones. -/
def GenericForE (lam : Vec (m + 1)) (D : List (Cone (m + 1) × Vec (m + 1))) : Prop := ∀ c ∈ D, ∀ i, ∑ k, lam k * c.1.rays i k ≠ 0

theorem acceptEhrhart_iff (X : Smith.Xgcd) (lam : Vec (m + 1)) (fuel : ℕ) (ev : Vec (m + 1)) (D : Cone (m + 1)) :
    acceptEhrhart X lam fuel ev D = true ↔ ∀ i, ∑ k, lam k * D.rays i k ≠ 0 := by
  rw [accept_eq, ← Bool.not_eq_false, c42_status]
  push Not
  rfl

theorem decompositionE_ready (N : Ntl (m + 1)) (hN : N.Ok) (v : Variant) (irr : Cone (m + 1) → Fin (m + 1) → ℚ) (maxDet : ℤ)
    (h0 : maxDet ≠ 0) (hmax : maxDet ≤ Piped.intMax) (fuel : ℕ) (hfuel : maxDet < fuel) (acc : Vec (m + 1) → Cone (m + 1) → Bool)
    (cones : List (EhrhartCone (m + 1))) : ∀ (out : List (Cone (m + 1) × Vec (m + 1))) (md : ℕ) {out' : List (Cone (m + 1) × Vec (m + 1))},
    decompositionE N v irr maxDet acc cones out md = .ok out' → ∃ new, out' = out ++ new ∧ ∀ c ∈ new, Ready fuel c.1 := by
  induction cones with
  | nil => intro out md out' h; cases h; exact ⟨[], by simp, by simp⟩
  | cons C Cs ih =>
    intro out md out' h
    unfold decompositionE at h
    split at h
    · rename_i new1 md1 h1
      obtain ⟨new, e, g1⟩ := ready_list ⟨N, v.mode, maxDet, fun _ D => acc C.ehrhart D⟩ hN v rfl irr h0 hmax fuel hfuel C.vertex C.simplices [] md h1
      rw [List.nil_append] at e
      subst e
      obtain ⟨new2, rfl, g2⟩ := ih _ _ h
      refine ⟨(new1.map fun D => (D, C.ehrhart)) ++ new2, by simp, fun c hc => ?_⟩
      rcases List.mem_append.1 hc with hc | hc
      · obtain ⟨D, hD, rfl⟩ := List.mem_map.1 hc
        exact g1 D hD
      · exact g2 c hc
    · cases h
    · cases h
    · cases h

theorem decompositionE_follows [NeZero n] (N : Ntl n) (v : Variant) (irr : Cone n → Fin n → ℚ) (maxDet : ℤ) (acc : Vec n → Cone n → Bool)
    (cones : List (EhrhartCone n)) : ∀ (out : List (Cone n × Vec n)) (md : ℕ) (out' : List (Cone n × Vec n)),
    decompositionE N v irr maxDet (fun _ _ => true) cones out md = .ok out' → ∃ new, out' = out ++ new ∧
      ((∀ c ∈ new, acc c.2 c.1 = true) → decompositionE N v irr maxDet acc cones out md = .ok out') ∧
      ((∃ c ∈ new, acc c.2 c.1 = false) → decompositionE N v irr maxDet acc cones out md = .error .notGeneric) := by
  induction cones with
  | nil => intro out md out' h; cases h; exact ⟨[], by simp, fun _ => rfl, by simp⟩
  | cons C Cs ih =>
    intro out md out' h
    unfold decompositionE at h
    split at h
    · rename_i new1 md1 h1
      obtain ⟨new, e, a1, a2⟩ := decomposition_follows N v.mode maxDet (fun D => acc C.ehrhart D) v irr C.vertex C.simplices [] md _ _ h1
      rw [List.nil_append] at e
      subst e
      obtain ⟨new2, rfl, b1, b2⟩ := ih _ _ _ h
      refine ⟨(new1.map fun D => (D, C.ehrhart)) ++ new2, by simp, fun hall => ?_, ?_⟩
      · unfold decompositionE
        rw [a1 fun D hD => hall (D, C.ehrhart) (List.mem_append_left _ (List.mem_map_of_mem hD))]
        exact b1 fun c hc => hall c (List.mem_append_right _ hc)
      · rintro ⟨c, hc, hq⟩
        unfold decompositionE
        by_cases hall : ∀ D ∈ new1, acc C.ehrhart D = true
        · rw [a1 hall]
          refine b2 ⟨c, ?_, hq⟩
          rcases List.mem_append.1 hc with hc | hc
          · obtain ⟨D, hD, rfl⟩ := List.mem_map.1 hc
            rw [hall D hD] at hq
            cases hq
          · exact hc
        · push Not at hall
          obtain ⟨D, hD, hq'⟩ := hall
          obtain ⟨o, md2, e2⟩ := a2 ⟨D, hD, by simpa using hq'⟩
          rw [e2]
    · cases h
    · cases h
    · cases h

/-- **C69, which vectors make a round succeed.** If the decomposition delivers the cones `D`, a round is abandoned exactly if the vector is orthogonal to
a ray of one of them, otherwise it ends with coefficients. -/
theorem c69_attempt (N : Ntl (m + 1)) (hN : N.Ok) (X : Smith.Xgcd) (v : Variant) (irr : Cone (m + 1) → Fin (m + 1) → ℚ)
    (maxDet : ℤ) (h0 : maxDet ≠ 0) (hmax : maxDet ≤ Piped.intMax) (fuel : ℕ) (hfuel : maxDet < fuel)
    (cones : List (EhrhartCone (m + 1))) (D : List (Cone (m + 1) × Vec (m + 1)))
    (hD : deliveredE N v irr maxDet cones = .ok D) (lam : Vec (m + 1)) :
    (GenericForE lam D → ∃ c, ehrhartOnce N X v irr maxDet fuel cones lam = .ok c) ∧
    (¬ GenericForE lam D → ehrhartOnce N X v irr maxDet fuel cones lam = .error .notGeneric) := by
  obtain ⟨new, e, hr⟩ := decompositionE_ready N hN v irr maxDet h0 hmax fuel hfuel _ cones [] 0 hD
  rw [List.nil_append] at e
  subst e
  obtain ⟨new, e, a1, a2⟩ := decompositionE_follows N v irr maxDet (acceptEhrhart X lam fuel) cones [] 0 _ hD
  rw [List.nil_append] at e
  subst e
  unfold ehrhartOnce
  constructor
  · intro hg
    rw [a1 fun c hc => (acceptEhrhart_iff X lam fuel c.2 c.1).2 (hg c hc)]
    obtain ⟨c, hc, -⟩ := c44_ehrhart X lam fuel D hr hg
    exact ⟨c, hc⟩
  · intro hg
    unfold GenericForE at hg
    push Not at hg
    obtain ⟨c, hc, i, hi⟩ := hg
    rw [a2 ⟨c, hc, by
      rw [← Bool.not_eq_true, acceptEhrhart_iff]
      push Not
      exact ⟨i, hi⟩⟩]

/-- Vectors that succeed exist. -/
theorem c69_generic_exists (N : Ntl (m + 1)) (hN : N.Ok) (v : Variant) (irr : Cone (m + 1) → Fin (m + 1) → ℚ)
    (maxDet : ℤ) (h0 : maxDet ≠ 0) (hmax : maxDet ≤ Piped.intMax) (cones : List (EhrhartCone (m + 1)))
    (D : List (Cone (m + 1) × Vec (m + 1))) (hD : deliveredE N v irr maxDet cones = .ok D) : ∃ lam, GenericForE lam D := by
  obtain ⟨new, e, hr⟩ := decompositionE_ready N hN v irr maxDet h0 hmax (maxDet.toNat + 1) (by omega) _ cones [] 0 hD
  rw [List.nil_append] at e
  subst e
  obtain ⟨lam, h⟩ := c42_generic_exists (maxDet.toNat + 1) (D.map (·.1)) (by
    intro C hC
    obtain ⟨c, hc, rfl⟩ := List.mem_map.1 hC
    exact hr c hc)
  exact ⟨lam, fun c hc => h c.1 (List.mem_map_of_mem hc)⟩

/-- **C69, the loop ends** in the first round in which a suitable vector is tried. -/
theorem c69_ends (N : Ntl (m + 1)) (hN : N.Ok) (X : Smith.Xgcd) (v : Variant) (irr : Cone (m + 1) → Fin (m + 1) → ℚ)
    (maxDet : ℤ) (h0 : maxDet ≠ 0) (hmax : maxDet ≤ Piped.intMax) (fuel : ℕ) (hfuel : maxDet < fuel)
    (cones : List (EhrhartCone (m + 1))) (D : List (Cone (m + 1) × Vec (m + 1))) (hD : deliveredE N v irr maxDet cones = .ok D)
    (t : ℕ) (guesses : ℕ → Vec (m + 1)) (hbad : ∀ s < t, ¬ GenericForE (guesses s) D) (hgood : GenericForE (guesses t) D)
    (tries : ℕ) (htries : t < tries) : ∃ c, decomposeAndEhrhart N X v irr maxDet fuel cones tries guesses = .ok c := by
  induction t generalizing guesses tries with
  | zero =>
    obtain ⟨k, rfl⟩ : ∃ k, tries = k + 1 := ⟨tries - 1, by omega⟩
    obtain ⟨c, hc⟩ := (c69_attempt N hN X v irr maxDet h0 hmax fuel hfuel cones D hD (guesses 0)).1 hgood
    unfold decomposeAndEhrhart
    rw [hc]
    exact ⟨c, rfl⟩
  | succ t ih =>
    obtain ⟨k, rfl⟩ : ∃ k, tries = k + 1 := ⟨tries - 1, by omega⟩
    unfold decomposeAndEhrhart
    rw [(c69_attempt N hN X v irr maxDet h0 hmax fuel hfuel cones D hD (guesses 0)).2 (hbad 0 (by omega))]
    exact ih (fun i => guesses (i + 1)) (fun s hs => hbad (s + 1) (by omega)) hgood k (by omega)

/-- If every simplex of every vertex cone is decomposed without exception, the whole list is. -/
theorem deliveredE_of_single [NeZero n] (N : Ntl n) (v : Variant) (irr : Cone n → Fin n → ℚ) (maxDet : ℤ) (cones : List (EhrhartCone n))
    (h : ∀ c ∈ cones, ∀ B ∈ c.simplices, ∀ out md, ∃ out' md',
      barvinokSingle ⟨N, v.mode, maxDet, fun _ _ => true⟩ v irr B c.vertex out md = .done true out' md') :
    ∃ D, deliveredE N v irr maxDet cones = .ok D := by
  have list : ∀ (T : List (Mat n)) vertex, (∀ B ∈ T, ∀ out md, ∃ out' md',
      barvinokSingle ⟨N, v.mode, maxDet, fun _ _ => true⟩ v irr B vertex out md = .done true out' md') → ∀ out md,
      ∃ out' md', barvinokDecompositionSingle ⟨N, v.mode, maxDet, fun _ _ => true⟩ v irr vertex T out md = .done true out' md' := by
    intro T vertex
    induction T with
    | nil => intro _ out md; exact ⟨_, _, rfl⟩
    | cons B T ih =>
      intro hT out md
      obtain ⟨o1, m1, e1⟩ := hT B List.mem_cons_self out md
      unfold barvinokDecompositionSingle
      rw [e1]
      exact ih (fun B' h => hT B' (List.mem_cons_of_mem _ h)) o1 m1
  have all : ∀ (cs : List (EhrhartCone n)), (∀ c ∈ cs, ∀ B ∈ c.simplices, ∀ out md, ∃ out' md',
      barvinokSingle ⟨N, v.mode, maxDet, fun _ _ => true⟩ v irr B c.vertex out md = .done true out' md') → ∀ out md,
      ∃ out', decompositionE N v irr maxDet (fun _ _ => true) cs out md = .ok out' := by
    intro cs
    induction cs with
    | nil => intro _ out md; exact ⟨_, rfl⟩
    | cons C cs ih =>
      intro hcs out md
      obtain ⟨o1, m1, e1⟩ := list C.simplices C.vertex (hcs _ List.mem_cons_self) [] md
      unfold decompositionE
      rw [e1]
      exact ih (fun c' h => hcs c' (List.mem_cons_of_mem _ h)) _ m1
  exact all cones h [] 0

end Verif.ExpSubst
