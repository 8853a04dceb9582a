import Verif.PolySubst.Count

/-!
# The run of the program with the polynomial substitution (C70)
-/

namespace Verif.PolySubst

open PowerSeries
open Verif.Barvinok (Cone Mat Vec Ntl Variant rel)
open Verif.Barvinok.Spec
open Verif.ExpSubst

variable {m : ℕ}

/-! ### One cone -/

theorem sumTerms_spec {n : ℕ} (T : ℤ) (lam : Lat n) (rays : List (Lat n)) (h0 : rays ≠ []) (hg : ∀ r ∈ rays, ip lam r ≠ 0) (c : ℤ) :
    ∀ (pts : List (Lat n)) (acc : ℤ), ∃ t, sumTerms T (rays.map (ip lam)) c (pts.map (ip lam)) acc = some (acc + t) ∧
      Below ((T : ℚ) * ((-1) ^ rays.length * exactCone lam c rays pts)) pts.length t := by
  intro pts
  induction pts with
  | nil =>
    intro acc
    refine ⟨0, by simp [sumTerms], ?_⟩
    have : exactCone lam c rays [] = 0 := by simp [exactCone, gf]
    rw [this]
    simpa using below_zero
  | cons p l ih =>
    intro acc
    have ht := term_spec T (rays.map (ip lam)) (by simpa using h0)
      (by intro x hx; obtain ⟨r, hr, rfl⟩ := List.mem_map.1 hx; exact hg r hr) (ip lam p) c
    rw [List.length_map, List.map_map] at ht
    rw [List.map_cons, sumTerms, ht]
    obtain ⟨t, h1, h2⟩ := ih (acc + ⌊(T : ℚ) * ((-1) ^ rays.length * (c * coeff rays.length (wz (ip lam p) * (rays.map (F ∘ ip lam)).prod)))⌋)
    refine ⟨⌊(T : ℚ) * ((-1) ^ rays.length * (c * coeff rays.length (wz (ip lam p) * (rays.map (F ∘ ip lam)).prod)))⌋ + t, ?_, ?_⟩
    · simp only [h1, add_assoc]
    · rw [List.length_cons, Nat.add_comm]
      have hx : (T : ℚ) * ((-1) ^ rays.length * exactCone lam c rays (p :: l)) =
          (T : ℚ) * ((-1) ^ rays.length * (c * coeff rays.length (wz (ip lam p) * (rays.map (F ∘ ip lam)).prod))) +
            (T : ℚ) * ((-1) ^ rays.length * exactCone lam c rays l) := by
        have : psi lam (gf (p :: l)) = wz (ip lam p) + psi lam (gf l) := by
          rw [psi_gf, psi_gf, List.map_cons, List.sum_cons]
        unfold exactCone
        rw [this, add_mul, map_add]
        have e : series lam rays = (rays.map (F ∘ ip lam)).prod := rfl
        rw [e]
        ring
      rw [hx]
      exact (below_floor _).add h2

theorem den'_ofFn {n : ℕ} (A : Mat n) : den' (List.ofFn fun i => A i) = den A := by
  unfold den' den
  rw [List.map_ofFn, List.prod_ofFn]
  rfl

theorem dots_eq {n : ℕ} (lam : Vec n) (rays : List (Vec n)) : (rays.map fun r => ∑ k, r k * lam k) = rays.map (ip lam) :=
  List.map_congr_left fun _ _ => Finset.sum_congr rfl fun _ _ => mul_comm _ _

/-- The contribution of one cone. -/
theorem consumeCone_ok (X : Smith.Xgcd) (T : ℤ) (lam : Vec (m + 1)) (fuel : ℕ) (C : Cone (m + 1)) (hC : Ready fuel C)
    (hint : ((m + 1 : ℕ) : ℤ) * |C.rays.det| ≤ Piped.intMax) (hgen : ∀ i, ip lam (C.rays i) ≠ 0) :
    ∃ (pts : List (Vec (m + 1))) (t : ℤ), act (den' (List.ofFn fun i => C.rays i)) (coneInd C.rays C.vertex) = emb (gf pts) ∧
      (pts.length : ℤ) = |C.rays.det| ∧ consumeCone X T lam fuel C = .ok t ∧
      Below ((T : ℚ) * ((-1) ^ (m + 1) * exactCone lam C.coefficient (List.ofFn fun i => C.rays i) pts)) pts.length t := by
  obtain ⟨F, hF, hG⟩ := hC.facets
  obtain ⟨pts, h1, h2, h3, h4⟩ := Piped.c13_points_exact X (pipedInput C F) hG hC.small fuel hC.fuel
  have h3' : (pts.length : ℤ) = |C.rays.det| := h3
  obtain ⟨t, ht, hb⟩ := sumTerms_spec T lam (List.ofFn fun i => C.rays i) (by simp)
    (by intro r hr; obtain ⟨i, rfl⟩ := List.mem_ofFn.1 hr; exact hgen i) C.coefficient pts 0
  refine ⟨pts, t, ?_, h3', ?_, ?_⟩
  · rw [den'_ofFn]
    exact act_cone C F hG pts h2 fun p => by rw [h4, pipedInput_vertex]; rfl
  · unfold consumeCone
    simp only [hF, h1]
    unfold residueSingleCone
    rw [if_neg (by rw [List.length_ofFn, h3']; exact not_lt.2 hint)]
    simp only [dots_eq]
    rw [if_neg]
    · have : (pts.map fun p => ∑ k, lam k * p k) = pts.map (ip lam) := rfl
      rw [this, ht, zero_add]
    · simp only [List.any_eq_true, List.mem_map, List.mem_ofFn, beq_iff_eq, not_exists, not_and]
      rintro p - x ⟨r, ⟨i, rfl⟩, rfl⟩
      exact hgen i
  · rw [List.length_ofFn] at hb
    exact hb

theorem consumeCone_notGeneric (X : Smith.Xgcd) (T : ℤ) (lam : Vec (m + 1)) (fuel : ℕ) (C : Cone (m + 1)) (hC : Ready fuel C)
    (hint : ((m + 1 : ℕ) : ℤ) * |C.rays.det| ≤ Piped.intMax) (i : Fin (m + 1)) (hi : ip lam (C.rays i) = 0) :
    consumeCone X T lam fuel C = .error .notGeneric := by
  obtain ⟨F, hF, hG⟩ := hC.facets
  obtain ⟨pts, h1, h2, h3, h4⟩ := Piped.c13_points_exact X (pipedInput C F) hG hC.small fuel hC.fuel
  have h3' : (pts.length : ℤ) = |C.rays.det| := h3
  have hne : pts ≠ [] := by
    rintro rfl
    have : C.rays.det ≠ 0 := hG.ne
    rw [List.length_nil, Nat.cast_zero, eq_comm, abs_eq_zero] at h3'
    exact this h3'
  unfold consumeCone
  simp only [hF, h1]
  unfold residueSingleCone
  rw [if_neg (by rw [List.length_ofFn, h3']; exact not_lt.2 hint)]
  simp only [dots_eq]
  rw [if_pos]
  obtain ⟨p, hp⟩ := List.exists_mem_of_ne_nil pts hne
  simp only [List.any_eq_true, beq_iff_eq]
  exact ⟨p, hp, 0, List.mem_map.2 ⟨_, List.mem_ofFn.2 ⟨i, rfl⟩, hi⟩, rfl⟩

theorem acceptPoly_iff (X : Smith.Xgcd) (T : ℤ) (lam : Vec (m + 1)) (fuel : ℕ) (C : Cone (m + 1)) (hC : Ready fuel C)
    (hint : ((m + 1 : ℕ) : ℤ) * |C.rays.det| ≤ Piped.intMax) :
    acceptPoly X T lam fuel C = true ↔ ∀ i, ∑ k, lam k * C.rays i k ≠ 0 := by
  constructor
  · intro h i hi
    unfold acceptPoly at h
    rw [consumeCone_notGeneric X T lam fuel C hC hint i hi] at h
    cases h
  · intro h
    obtain ⟨pts, t, -, -, e, -⟩ := consumeCone_ok X T lam fuel C hC hint h
    unfold acceptPoly
    rw [e]

/-! ### All cones -/

theorem totalPoints_ok (X : Smith.Xgcd) (T : ℤ) (lam : Vec (m + 1)) (fuel : ℕ) (val : Cone (m + 1) → ℚ) :
    ∀ (cones : List (Cone (m + 1))), (∀ C ∈ cones, ∃ t, consumeCone X T lam fuel C = .ok t ∧ Below (val C) C.rays.det.natAbs t) → ∀ acc : ℤ,
    ∃ t, totalPoints X T lam fuel cones acc = .ok (acc + t) ∧
      Below (cones.map val).sum (cones.map fun C => C.rays.det.natAbs).sum t := by
  intro cones
  induction cones with
  | nil => intro _ acc; exact ⟨0, by simp [totalPoints], below_zero⟩
  | cons C Cs ih =>
    intro h acc
    obtain ⟨t, h1, h2⟩ := h C List.mem_cons_self
    obtain ⟨u, h3, h4⟩ := ih (fun D hD => h D (List.mem_cons_of_mem _ hD)) (acc + t)
    refine ⟨t + u, ?_, ?_⟩
    · unfold totalPoints
      rw [h1]
      show totalPoints X T lam fuel Cs (acc + t) = _
      rw [h3, add_assoc]
    · rw [List.map_cons, List.sum_cons, List.map_cons, List.sum_cons]
      exact h2.add h4

/-- **C70, the sum of all contributions.** Let `cones` be signed simplicial cones (facet data in place, not too large) whose indicator functions
add up, at the lattice points, to the indicator of a finite set `S`, up to functions with lines.  For every vector that is not orthogonal to a ray the
program ends with a total that is `(-1)^d · T · |S|` up to a rounding error of less than one unit per lattice point of the
parallelepipeds. -/
theorem c70_total_error (X : Smith.Xgcd) (T : ℤ) (lam : Vec (m + 1)) (fuel : ℕ)
    (cones : List (Cone (m + 1))) (hready : ∀ C ∈ cones, Ready fuel C)
    (hint : ∀ C ∈ cones, ((m + 1 : ℕ) : ℤ) * |C.rays.det| ≤ Piped.intMax)
    (hgen : ∀ C ∈ cones, ∀ i, ∑ k, lam k * C.rays i k ≠ 0)
    (S : List (Vec (m + 1))) (hS : S.Nodup) (g : Vec (m + 1) → ℚ) (hg : g ∈ negligible (m + 1))
    (hind : ∀ z, (((cones.map fun C => C.coefficient * ind (cone C.rays) (rel z C.vertex)).sum : ℤ) : ℚ)
      = (if z ∈ S then 1 else 0) + g z) :
    ∃ t, totalPoints X T lam fuel cones 0 = .ok t ∧
      Below ((T : ℚ) * ((-1) ^ (m + 1) * S.length)) (cones.map fun C => C.rays.det.natAbs).sum t := by
  classical
  have hex : ∀ C ∈ cones, ∃ (pts : List (Vec (m + 1))), act (den' (List.ofFn fun i => C.rays i)) (coneInd C.rays C.vertex) = emb (gf pts) ∧
      ∃ t, consumeCone X T lam fuel C = .ok t ∧
      Below ((T : ℚ) * ((-1) ^ (m + 1) * exactCone lam C.coefficient (List.ofFn fun i => C.rays i) pts)) C.rays.det.natAbs t := by
    intro C hC
    obtain ⟨pts, t, h1, h2, h3, h4⟩ := consumeCone_ok X T lam fuel C (hready C hC) (hint C hC) (hgen C hC)
    have : pts.length = C.rays.det.natAbs := by rw [Int.abs_eq_natAbs] at h2; exact_mod_cast h2
    exact ⟨pts, h1, t, h3, this ▸ h4⟩
  choose! pts hpts ht using hex
  obtain ⟨t, h1, h2⟩ := totalPoints_ok X T lam fuel
    (fun C => (T : ℚ) * ((-1) ^ (m + 1) * exactCone lam C.coefficient (List.ofFn fun i => C.rays i) (pts C))) cones ht 0
  refine ⟨t, by rw [h1, zero_add], ?_⟩
  have hsum : (cones.map fun C => exactCone lam C.coefficient (List.ofFn fun i => C.rays i) (pts C)).sum = (S.length : ℚ) := by
    refine exact_count lam (m + 1) cones (fun C => C.coefficient) (fun C => List.ofFn fun i => C.rays i) pts (fun C _ => by simp)
      (fun C => coneInd C.rays C.vertex) hpts ?_ S hS g hg fun z => ?_
    · intro C hC r hr
      obtain ⟨i, rfl⟩ := List.mem_ofFn.1 hr
      exact hgen C hC i
    · rw [← hind z, Int.cast_list_sum, List.map_map]
      congr 1
      refine List.map_congr_left fun C _ => ?_
      simp only [Function.comp, coneInd]
      push_cast
      rfl
  have e : (cones.map fun C => (T : ℚ) * ((-1) ^ (m + 1) * exactCone lam C.coefficient (List.ofFn fun i => C.rays i) (pts C))).sum =
      (T : ℚ) * ((-1) ^ (m + 1) * S.length) := by
    rw [← hsum, List.sum_map_mul_left, List.sum_map_mul_left]
  rw [e] at h2
  exact h2

/-! ### The run -/

theorem delivered_ready (N : Ntl (m + 1)) (hN : N.Ok) (v : Variant) (irr : Cone (m + 1) → Fin (m + 1) → ℚ)
    (maxDet : ℤ) (h0 : maxDet ≠ 0) (hmax : maxDet ≤ Piped.intMax) (fuel : ℕ) (hfuel : maxDet < fuel)
    (cones : List ((Fin (m + 1) → ℚ) × List (Mat (m + 1)))) (D : List (Cone (m + 1)))
    (hD : delivered N v irr maxDet cones = some D) : ∀ C ∈ D, Ready fuel C := by
  unfold delivered at hD
  split at hD
  · rename_i out md hrun
    cases hD
    obtain ⟨new, e, h⟩ := ready_all ⟨N, v.mode, maxDet, fun _ _ => true⟩ hN v rfl irr h0 hmax fuel hfuel cones [] 0 hrun
    rw [List.nil_append] at e
    subst e
    exact h
  · cases hD

/-- The delivered cones add up to the indicator of `S`. -/
theorem delivered_sum (N : Ntl (m + 1)) (hN : N.Ok) (X : Smith.Xgcd) (v : Variant) (irr : Cone (m + 1) → Fin (m + 1) → ℚ)
    (hirr : v = .irrationalPrimal → IrrOk irr) (maxDet : ℤ) (h0 : maxDet ≠ 0) (hmax : maxDet ≤ Piped.intMax)
    (cones : List ((Fin (m + 1) → ℚ) × List (Mat (m + 1)))) (D : List (Cone (m + 1)))
    (hD : delivered N v irr maxDet cones = some D)
    (S : List (Vec (m + 1))) (g : Vec (m + 1) → ℚ) (hg : g ∈ negligible (m + 1))
    (hind : ∀ z, (((cones.map fun c => (c.2.map fun B => inputInd v c.1 B z).sum).sum : ℤ) : ℚ) =
      (if z ∈ S then 1 else 0) + g z) :
    ∃ g' ∈ negligible (m + 1), ∀ z, (((D.map fun C => C.coefficient * ind (cone C.rays) (rel z C.vertex)).sum : ℤ) : ℚ)
      = (if z ∈ S then 1 else 0) + g' z := by
  have hfuel : maxDet < ((maxDet.toNat + 1 : ℕ) : ℤ) := by omega
  have hready := delivered_ready N hN v irr maxDet h0 hmax _ hfuel cones D hD
  obtain ⟨lam, hlam⟩ := c42_generic_exists _ D hready
  unfold delivered at hD
  split at hD
  · rename_i out md hrun
    cases hD
    obtain ⟨new, e, a1, -⟩ := list_follows N v.mode maxDet (fun C => acceptExp X lam (maxDet.toNat + 1) C) v irr cones [] 0 _ _ hrun
    rw [List.nil_append] at e
    subst e
    have hrun' := a1 fun C hC => (accept_iff X lam _ C (hready C hC)).2 (hlam C hC)
    obtain ⟨new, e, hgood⟩ := decompositionList_good N hN X v irr hirr maxDet h0 hmax _ hfuel lam cones [] 0 hrun'
    rw [List.nil_append] at e
    subst e
    refine ⟨_, Submodule.add_mem _ hg hgood.sum, fun z => ?_⟩
    have := hind z
    push_cast at this ⊢
    simp only [Pi.add_apply]
    linarith
  · cases hD

/-- **C70, one attempt.** If the decomposition delivers the cones `D`: with a vector orthogonal to a ray of one of them the attempt is abandoned; with every other
vector it ends with a total that differs from `(-1)^d · 10^10 · |S|` by less than one unit per lattice point enumerated. -/
theorem c70_attempt (N : Ntl (m + 1)) (hN : N.Ok) (X : Smith.Xgcd) (v : Variant) (irr : Cone (m + 1) → Fin (m + 1) → ℚ)
    (hirr : v = .irrationalPrimal → IrrOk irr) (maxDet : ℤ) (h1 : 1 ≤ maxDet) (hmax : ((m + 1 : ℕ) : ℤ) * maxDet ≤ Piped.intMax)
    (fuel : ℕ) (hfuel : maxDet < fuel) (T : ℤ) (cones : List ((Fin (m + 1) → ℚ) × List (Mat (m + 1)))) (D : List (Cone (m + 1)))
    (hD : delivered N v irr maxDet cones = some D)
    (S : List (Vec (m + 1))) (hS : S.Nodup) (g : Vec (m + 1) → ℚ) (hg : g ∈ negligible (m + 1))
    (hind : ∀ z, (((cones.map fun c => (c.2.map fun B => inputInd v c.1 B z).sum).sum : ℤ) : ℚ) =
      (if z ∈ S then 1 else 0) + g z) (lam : Vec (m + 1)) :
    (GenericFor lam D → ∃ t, polyOnce N X v irr maxDet fuel T cones lam = .ok t ∧
      Below ((T : ℚ) * ((-1) ^ (m + 1) * S.length)) (D.map fun C => C.rays.det.natAbs).sum t) ∧
    (¬ GenericFor lam D → polyOnce N X v irr maxDet fuel T cones lam = .error .notGeneric) := by
  have h0 : maxDet ≠ 0 := by omega
  have hmax' : maxDet ≤ Piped.intMax := by
    refine le_trans ?_ hmax
    exact le_mul_of_one_le_left (by omega) (by push_cast; omega)
  have hready := delivered_ready N hN v irr maxDet h0 hmax' fuel hfuel cones D hD
  have hint : ∀ C ∈ D, ((m + 1 : ℕ) : ℤ) * |C.rays.det| ≤ Piped.intMax := by
    intro C hC
    -- the index is bounded by `maxDet`
    have hr := delivered_ready N hN v irr maxDet h0 hmax' (maxDet.toNat + 1) (by omega) cones D hD C hC
    have := hr.fuel
    refine le_trans (mul_le_mul_of_nonneg_left ?_ (by positivity)) hmax
    push_cast at this
    omega
  obtain ⟨g', hg', hind'⟩ := delivered_sum N hN X v irr hirr maxDet h0 hmax' cones D hD S g hg hind
  unfold delivered at hD
  split at hD
  · rename_i out md hrun
    cases hD
    obtain ⟨new, e, a1, a2⟩ := list_follows N v.mode maxDet (fun C => acceptPoly X T lam fuel C) v irr cones [] 0 _ _ hrun
    rw [List.nil_append] at e
    subst e
    constructor
    · intro hgen
      have hrun' := a1 fun C hC => (acceptPoly_iff X T lam fuel C (hready C hC) (hint C hC)).2 (hgen C hC)
      obtain ⟨t, h2, h3⟩ := c70_total_error X T lam fuel D hready hint hgen S hS g' hg' hind'
      refine ⟨t, ?_, h3⟩
      unfold polyOnce
      simp only [hrun']
      exact h2
    · intro hgen
      unfold GenericFor at hgen
      push Not at hgen
      obtain ⟨C, hC, i, hi⟩ := hgen
      obtain ⟨o, md2, hrun'⟩ := a2 ⟨C, hC, by
        rw [← Bool.not_eq_true, acceptPoly_iff X T lam fuel C (hready C hC) (hint C hC)]
        push Not
        exact ⟨i, hi⟩⟩
      unfold polyOnce
      simp only [hrun']
  · cases hD

theorem tenPowerConst_eq : tenPowerConst = 10 ^ 10 := by decide +kernel

/-- **C70, the answer.** If the decomposition delivers cones `D` with at most `5·10⁹` lattice points in their parallelepipeds altogether, then every
answer of the program is the number of points of `S`, whatever vectors were tried before. -/
theorem c70_answer (N : Ntl (m + 1)) (hN : N.Ok) (X : Smith.Xgcd) (v : Variant) (irr : Cone (m + 1) → Fin (m + 1) → ℚ)
    (hirr : v = .irrationalPrimal → IrrOk irr) (maxDet : ℤ) (h1 : 1 ≤ maxDet) (hmax : ((m + 1 : ℕ) : ℤ) * maxDet ≤ Piped.intMax)
    (fuel : ℕ) (hfuel : maxDet < fuel) (cones : List ((Fin (m + 1) → ℚ) × List (Mat (m + 1)))) (D : List (Cone (m + 1)))
    (hD : delivered N v irr maxDet cones = some D) (hterms : (D.map fun C => C.rays.det.natAbs).sum ≤ 5 * 10 ^ 9)
    (S : List (Vec (m + 1))) (hS : S.Nodup) (g : Vec (m + 1) → ℚ) (hg : g ∈ negligible (m + 1))
    (hind : ∀ z, (((cones.map fun c => (c.2.map fun B => inputInd v c.1 B z).sum).sum : ℤ) : ℚ) =
      (if z ∈ S then 1 else 0) + g z) (tries : ℕ) (guesses : ℕ → Vec (m + 1)) (r : ℤ)
    (h : decomposeAndComputeResidue N X v irr maxDet fuel cones tries guesses = .ok r) : r = S.length := by
  induction tries generalizing guesses with
  | zero => cases h
  | succ t ih =>
    unfold decomposeAndComputeResidue at h
    obtain ⟨a1, a2⟩ := c70_attempt N hN X v irr hirr maxDet h1 hmax fuel hfuel tenPowerConst cones D hD S hS g hg hind (guesses 0)
    by_cases hgen : GenericFor (guesses 0) D
    · obtain ⟨u, hu, hb⟩ := a1 hgen
      rw [hu] at h
      simp only [Except.ok.injEq] at h
      rw [← h]
      exact round_ok _ _ _ _ (by rw [tenPowerConst_eq]; omega) (by rw [tenPowerConst_eq]; norm_num) _ hb
    · rw [a2 hgen] at h
      exact ih _ h

/-- **C70, total correctness of the retry loop.** -/
theorem c70_ends (N : Ntl (m + 1)) (hN : N.Ok) (X : Smith.Xgcd) (v : Variant) (irr : Cone (m + 1) → Fin (m + 1) → ℚ)
    (hirr : v = .irrationalPrimal → IrrOk irr) (maxDet : ℤ) (h1 : 1 ≤ maxDet) (hmax : ((m + 1 : ℕ) : ℤ) * maxDet ≤ Piped.intMax)
    (fuel : ℕ) (hfuel : maxDet < fuel) (cones : List ((Fin (m + 1) → ℚ) × List (Mat (m + 1)))) (D : List (Cone (m + 1)))
    (hD : delivered N v irr maxDet cones = some D) (hterms : (D.map fun C => C.rays.det.natAbs).sum ≤ 5 * 10 ^ 9)
    (S : List (Vec (m + 1))) (hS : S.Nodup) (g : Vec (m + 1) → ℚ) (hg : g ∈ negligible (m + 1))
    (hind : ∀ z, (((cones.map fun c => (c.2.map fun B => inputInd v c.1 B z).sum).sum : ℤ) : ℚ) =
      (if z ∈ S then 1 else 0) + g z)
    (t : ℕ) (guesses : ℕ → Vec (m + 1)) (hbad : ∀ s < t, ¬ GenericFor (guesses s) D) (hgood : GenericFor (guesses t) D)
    (tries : ℕ) (htries : t < tries) :
    decomposeAndComputeResidue N X v irr maxDet fuel cones tries guesses = .ok (S.length : ℤ) := by
  have hat := c70_attempt N hN X v irr hirr maxDet h1 hmax fuel hfuel tenPowerConst cones D hD S hS g hg hind
  induction t generalizing guesses tries with
  | zero =>
    obtain ⟨k, rfl⟩ : ∃ k, tries = k + 1 := ⟨tries - 1, by omega⟩
    unfold decomposeAndComputeResidue
    obtain ⟨u, hu, hb⟩ := (hat (guesses 0)).1 hgood
    rw [hu]
    simp only [Except.ok.injEq]
    exact round_ok _ _ _ _ (by rw [tenPowerConst_eq]; omega) (by rw [tenPowerConst_eq]; norm_num) _ hb
  | succ t ih =>
    obtain ⟨k, rfl⟩ : ∃ k, tries = k + 1 := ⟨tries - 1, by omega⟩
    unfold decomposeAndComputeResidue
    rw [(hat (guesses 0)).2 (hbad 0 (by omega))]
    exact ih (fun i => guesses (i + 1)) (fun s hs => hbad (s + 1) (by omega)) hgood k (by omega)

end Verif.PolySubst
