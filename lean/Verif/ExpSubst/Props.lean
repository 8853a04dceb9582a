import Verif.ExpSubst.Residue
import Verif.Barvinok.Lines

/-!
# Counting lattice points by exponential substitution (C20), Ehrhart polynomials (C44), and the
retry on a bad random vector (C42)
-/

namespace Verif.ExpSubst

open Verif.Barvinok (Cone Mat Vec rel Ntl Variant Params Outcome Wf Delivered Prim polar lineFn
  barvinokDecompositionSingle barvinokSingle workRays dfs)
open Verif.Barvinok.Spec
open PowerSeries Verif.Todd

variable {m : ℕ}

/-! ## Sanity of the notion "negligible" -/

/-- A finitely supported function that is negligible is zero: counting is not affected by negligible
functions. -/
theorem negligible_finite {n : ℕ} (S : List (Lat n)) (hS : S.Nodup)
    (h : (fun p => if p ∈ S then (1 : ℚ) else 0) ∈ negligible n) : S = [] := by
  obtain ⟨L, hL, h0⟩ := negligible_killed h
  have e : (fun p => if p ∈ S then (1 : ℚ) else 0) = emb (gf S) := by
    funext p; rw [emb_gf S hS]
  rw [e, act_emb] at h0
  have h1 : L * gf S = 0 := emb_injective (by rw [h0]; exact (map_zero (embL (n := n))).symm)
  have h2 : gf S = 0 := (mul_eq_zero.mp h1).resolve_left hL
  cases S with
  | nil => rfl
  | cons a S =>
    exfalso
    have := emb_gf (a :: S) hS a
    rw [h2, if_pos (by simp)] at this
    have h3 : emb (0 : LP n) a = 0 := congrFun (map_zero (embL (n := n))) a
    rw [h3] at this
    norm_num at this

/-! ## The sum over cones -/

theorem residueSum_ok (X : Smith.Xgcd) (lam : Vec (m + 1)) (fuel : ℕ) (cones : List (Cone (m + 1)))
    (val : Cone (m + 1) → ℚ) (h : ∀ C ∈ cones, residueSingle X lam C fuel = .ok (val C)) (r : ℚ) :
    residueSum X lam fuel cones r = .ok (r + (cones.map val).sum) := by
  induction cones generalizing r with
  | nil => simp [residueSum]
  | cons C Cs ih =>
    unfold residueSum
    rw [h C (by simp)]
    show residueSum X lam fuel Cs (r + val C) = _
    rw [ih (fun D hD => h D (by simp [hD])), List.map_cons, List.sum_cons, add_assoc]

/-- **C20.** Let `cones` be signed simplicial cones (facet data in place, index at most `INT_MAX`)
whose indicator functions add up, at the lattice points, to the indicator of a finite set `S`, up
to functions with lines. Then for every vector that is not orthogonal to a ray the exponential
residues of the cones add up to exactly the number of points of `S`. -/
theorem c20_residues_count (X : Smith.Xgcd) (lam : Vec (m + 1)) (fuel : ℕ)
    (cones : List (Cone (m + 1))) (hready : ∀ C ∈ cones, Ready fuel C)
    (hgen : ∀ C ∈ cones, ∀ i, ∑ k, lam k * C.rays i k ≠ 0)
    (S : List (Vec (m + 1))) (hS : S.Nodup) (g : Vec (m + 1) → ℚ) (hg : g ∈ negligible (m + 1))
    (hind : ∀ z, (((cones.map fun C => C.coefficient * ind (cone C.rays) (rel z C.vertex)).sum : ℤ) : ℚ)
      = (if z ∈ S then 1 else 0) + g z) :
    residueSum X lam fuel cones 0 = .ok (S.length : ℚ) := by
  classical
  have hex : ∀ C ∈ cones, ∃ pts : List (Vec (m + 1)),
      act (den C.rays) (coneInd C.rays C.vertex) = emb (gf pts) ∧
      residueSingle X lam C fuel =
        .ok ((C.coefficient : ℚ) * coeff (m + 1) (phi lam (gf pts) * coneSeries lam C.rays)) :=
    fun C hC => residueSingle_ok X lam fuel C (hready C hC) (hgen C hC)
  let pts : Cone (m + 1) → List (Vec (m + 1)) := fun C =>
    if h : ∃ pts : List (Vec (m + 1)),
      act (den C.rays) (coneInd C.rays C.vertex) = emb (gf pts) ∧
      residueSingle X lam C fuel =
        .ok ((C.coefficient : ℚ) * coeff (m + 1) (phi lam (gf pts) * coneSeries lam C.rays))
    then h.choose else []
  have hpts : ∀ C ∈ cones, act (den C.rays) (coneInd C.rays C.vertex) = emb (gf (pts C)) ∧
      residueSingle X lam C fuel =
        .ok ((C.coefficient : ℚ) * coeff (m + 1) (phi lam (gf (pts C)) * coneSeries lam C.rays)) := by
    intro C hC
    simp only [pts, dif_pos (hex C hC)]
    exact (hex C hC).choose_spec
  rw [residueSum_ok X lam fuel cones _ (fun C hC => (hpts C hC).2), zero_add]
  have hcount := counting (ι := Fin cones.length) lam (fun i => (cones[i].coefficient : ℚ))
    (fun i => den cones[i].rays) (fun i => pts cones[i])
    (fun i => coneInd cones[i].rays cones[i].vertex)
    (fun i => (hpts _ (List.getElem_mem _)).1) S hS g hg
    (fun z => by
      rw [← hind z]
      have : ((cones.map fun C => C.coefficient * ind (cone C.rays) (rel z C.vertex)).sum : ℤ) =
          ∑ i : Fin cones.length, cones[i].coefficient *
            ind (cone cones[i].rays) (rel z cones[i].vertex) := by
        rw [← List.sum_ofFn]
        congr 1
        apply List.ext_getElem (by simp)
        intro i h1 h2
        simp
      rw [this]
      push_cast
      rfl)
    (m + 1) (fun i => coneSeries lam cones[i].rays)
    (fun i => phi_den lam _ (hgen _ (List.getElem_mem _)))
  rw [hcount]
  congr 1
  rw [← List.sum_ofFn]
  congr 1
  apply List.ext_getElem (by simp)
  intro i h1 h2
  simp

/-- A vector orthogonal to a ray is detected: the sum stops with `NotGenericException`, unless the
program has stopped before. -/
theorem residueSum_notGeneric (X : Smith.Xgcd) (lam : Vec (m + 1)) (fuel : ℕ)
    (cones : List (Cone (m + 1))) (hready : ∀ C ∈ cones, Ready fuel C)
    (hgen : ∃ C ∈ cones, ∃ i, ∑ k, lam k * C.rays i k = 0) (r : ℚ) :
    residueSum X lam fuel cones r = .error .notGeneric := by
  induction cones generalizing r with
  | nil => obtain ⟨C, hC, -⟩ := hgen; simp at hC
  | cons C Cs ih =>
    unfold residueSum
    by_cases h : ∃ i, ∑ k, lam k * C.rays i k = 0
    · obtain ⟨i, hi⟩ := h
      unfold residueSingle
      rw [residueWeights_notGeneric lam C.rays i hi]
      rfl
    · push Not at h
      obtain ⟨pts, -, hr⟩ := residueSingle_ok X lam fuel C (hready C (by simp)) h
      rw [hr]
      show residueSum X lam fuel Cs _ = _
      apply ih (fun D hD => hready D (by simp [hD]))
      obtain ⟨D, hD, hi⟩ := hgen
      rcases List.mem_cons.mp hD with rfl | hD
      · obtain ⟨i, hi⟩ := hi; exact absurd hi (h i)
      · exact ⟨D, hD, hi⟩

/-- **C20, C42: the retry loop.** Whatever sequence of vectors the random number generator delivers:
if the `t`-th is the first one not orthogonal to any ray, the loop ends after `t + 1` rounds with the
number of points of `S`; the assertion on the denominator holds. -/
theorem c20_compute (X : Smith.Xgcd) (fuel : ℕ)
    (cones : List (Cone (m + 1))) (hready : ∀ C ∈ cones, Ready fuel C)
    (S : List (Vec (m + 1))) (hS : S.Nodup) (g : Vec (m + 1) → ℚ) (hg : g ∈ negligible (m + 1))
    (hind : ∀ z, (((cones.map fun C => C.coefficient * ind (cone C.rays) (rel z C.vertex)).sum : ℤ) : ℚ)
      = (if z ∈ S then 1 else 0) + g z) (t : ℕ) (guesses : ℕ → Vec (m + 1))
    (hbad : ∀ s < t, ∃ C ∈ cones, ∃ i, ∑ k, guesses s k * C.rays i k = 0)
    (hgood : ∀ C ∈ cones, ∀ i, ∑ k, guesses t k * C.rays i k ≠ 0)
    (tries : ℕ) (htries : t < tries) :
    computeResidue X fuel cones tries guesses = .ok (S.length : ℤ) := by
  induction t generalizing guesses tries with
  | zero =>
    obtain ⟨k, rfl⟩ : ∃ k, tries = k + 1 := ⟨tries - 1, by omega⟩
    unfold computeResidue
    rw [c20_residues_count X (guesses 0) fuel cones hready hgood S hS g hg hind]
    simp
  | succ t ih =>
    obtain ⟨k, rfl⟩ : ∃ k, tries = k + 1 := ⟨tries - 1, by omega⟩
    unfold computeResidue
    rw [residueSum_notGeneric X (guesses 0) fuel cones hready (hbad 0 (by omega))]
    exact ih (fun i => guesses (i + 1)) (fun s hs => hbad (s + 1) (by omega)) hgood k (by omega)

/-! ## The whole count -/

/-- What the input cone `(v, B)` contributes at the lattice point `z`: in the variants working on
dual cones the simplices `B` span the polar of the cone one is interested in. -/
noncomputable def inputInd (variant : Variant) (v : Fin (m + 1) → ℚ) (B : Mat (m + 1))
    (z : Vec (m + 1)) : ℤ :=
  match variant with
  | .dual | .irrationalPrimal => ind (polar B) (rel z v)
  | .irrationalAllPrimal => ind (cone B) (rel z v)

theorem restrict_negligible {n : ℕ} (v : Fin n → ℚ) {g : (Fin n → ℝ) → ℤ} (hg : g ∈ lineFn n) :
    (fun z : Vec n => ((g (rel z v) : ℤ) : ℚ)) ∈ negligible n := by
  induction hg using Submodule.span_induction with
  | mem f hf =>
    obtain ⟨l, hl, h⟩ := hf
    apply Submodule.subset_span
    refine ⟨l, hl, fun p => ?_⟩
    have : rel (p + l) v = rel p v + fun k => (1 : ℝ) * (l k : ℝ) := by
      funext k
      simp only [rel, Pi.add_apply]
      push_cast
      ring
    show ((f (rel (p + l) v) : ℤ) : ℚ) = ((f (rel p v) : ℤ) : ℚ)
    rw [this, h]
  | zero => exact Submodule.zero_mem _
  | add f g _ _ hf hg =>
    have := Submodule.add_mem _ hf hg
    convert this using 1
    funext z
    simp
  | smul c f _ hf =>
    have := Submodule.smul_mem _ (c : ℚ) hf
    convert this using 1
    funext z
    simp

/-- A delivered cone is ready for the exponential substitution. -/
theorem ready_of_delivered (P : Params (m + 1)) (C D : Cone (m + 1)) (hD : Delivered P C D)
    (hdvd : ∀ j, D.facetDivisors j ∣ D.determinant) (h0 : P.maxDet ≠ 0)
    (hmax : P.maxDet ≤ Piped.intMax) (fuel : ℕ) (hfuel : P.maxDet < fuel) : Ready fuel D := by
  obtain ⟨F, hF, -, -, hdual⟩ := hD.facets
  have hidx := hD.index.resolve_left h0
  refine ⟨⟨F, hF, hD.det_eq, ?_, hdual, hD.div_pos, hdvd, vertexScale_ne _⟩, hidx.trans hmax, ?_⟩
  · show D.rays.det ≠ 0
    rw [← hD.det_eq]; exact hD.det_ne
  · rw [← hD.det_eq]; exact lt_of_le_of_lt hidx hfuel

theorem generic_of_accept (X : Smith.Xgcd) (lam : Vec (m + 1)) (fuel : ℕ) (D : Cone (m + 1))
    (h : acceptExp X lam fuel D = true) (i : Fin (m + 1)) : ∑ k, lam k * D.rays i k ≠ 0 := by
  intro h0
  unfold acceptExp residueSingle at h
  rw [residueWeights_notGeneric lam D.rays i h0] at h
  change false = true at h
  exact Bool.noConfusion h

/-- The parameters of a run. -/
def expParams (N : Ntl (m + 1)) (X : Smith.Xgcd) (v : Variant) (maxDet : ℤ) (fuel : ℕ)
    (lam : Vec (m + 1)) : Params (m + 1) :=
  ⟨N, v.mode, maxDet, fun _ C => acceptExp X lam fuel C⟩

/-- What the new cones of a successful run satisfy; `target` is what they have to add up to. -/
structure Good (fuel : ℕ) (lam : Vec (m + 1)) (target : Vec (m + 1) → ℤ)
    (new : List (Cone (m + 1))) : Prop where
  ready : ∀ D ∈ new, Ready fuel D
  generic : ∀ D ∈ new, ∀ i, ∑ k, lam k * D.rays i k ≠ 0
  sum : (fun z => (((new.map fun D => D.coefficient * ind (cone D.rays) (rel z D.vertex)).sum -
    target z : ℤ) : ℚ)) ∈ negligible (m + 1)

theorem Good.append {fuel : ℕ} {lam : Vec (m + 1)} {t1 t2 : Vec (m + 1) → ℤ}
    {n1 n2 : List (Cone (m + 1))} (h1 : Good fuel lam t1 n1) (h2 : Good fuel lam t2 n2) :
    Good fuel lam (fun z => t1 z + t2 z) (n1 ++ n2) := by
  refine ⟨fun D hD => ?_, fun D hD => ?_, ?_⟩
  · rcases List.mem_append.mp hD with h | h
    · exact h1.ready D h
    · exact h2.ready D h
  · rcases List.mem_append.mp hD with h | h
    · exact h1.generic D h
    · exact h2.generic D h
  · have := Submodule.add_mem _ h1.sum h2.sum
    convert this using 1
    funext z
    rw [List.map_append, List.sum_append]
    push_cast
    simp only [Pi.add_apply]
    ring

/-- `irr` chooses, for every cone, a vertex with the same lattice points in the cone (this is what
`irrationalizeCone` is for, C41). -/
def IrrOk (irr : Cone (m + 1) → Fin (m + 1) → ℚ) : Prop :=
  ∀ (C : Cone (m + 1)) (z : Vec (m + 1)), Wf C →
    (rel z (irr C) ∈ cone C.rays ↔ rel z C.vertex ∈ cone C.rays)

theorem accepted_generic (P : Params (m + 1)) (X : Smith.Xgcd) (lam : Vec (m + 1)) (fuel : ℕ)
    (hacc : P.accept = fun _ C => acceptExp X lam fuel C) (out new : List (Cone (m + 1)))
    (h : ∀ pre D post, new = pre ++ D :: post → P.accept (out ++ pre) D = true)
    (D : Cone (m + 1)) (hD : D ∈ new) (i : Fin (m + 1)) : ∑ k, lam k * D.rays i k ≠ 0 := by
  obtain ⟨pre, post, e⟩ := List.append_of_mem hD
  have := h pre D post e
  rw [hacc] at this
  exact generic_of_accept X lam fuel D this i

theorem single_good (N : Ntl (m + 1)) (hN : N.Ok) (X : Smith.Xgcd) (v : Variant)
    (irr : Cone (m + 1) → Fin (m + 1) → ℚ) (hirr : v = .irrationalPrimal → IrrOk irr) (maxDet : ℤ)
    (h0 : maxDet ≠ 0) (hmax : maxDet ≤ Piped.intMax) (fuel : ℕ) (hfuel : maxDet < fuel)
    (lam : Vec (m + 1)) (B : Mat (m + 1)) (vertex : Fin (m + 1) → ℚ) (out : List (Cone (m + 1)))
    (md : ℕ) {out' : List (Cone (m + 1))} {md' : ℕ}
    (h : barvinokSingle (expParams N X v maxDet fuel lam) v irr B vertex out md =
      .done true out' md') :
    ∃ new, out' = out ++ new ∧ Good fuel lam (inputInd v vertex B) new := by
  set P := expParams N X v maxDet fuel lam with hP
  have hPn : P.ntl.Ok := hN
  -- facet divisors divide the determinant
  have hdvd : ∀ (C : Cone (m + 1)), Wf C → (∀ i, Prim (C.rays i)) → ∀ depth out md
      {ok : Bool} {out' : List (Cone (m + 1))} {md' : ℕ}, dfs P C depth out md = .done ok out' md' →
      ∃ new, out' = out ++ new ∧ (∀ D ∈ new, Delivered P C D) ∧
        ∀ D ∈ new, ∀ j, D.facetDivisors j ∣ D.determinant := by
    intro C hC hprim depth out md ok out' md' hd
    obtain ⟨new, e, hg⟩ := Piped.c13_applies_delivered P hPn C hC hprim depth out md hd 0 1 one_ne_zero
    have h1 := Barvinok.dfs_inv P hPn _ C rfl hC depth out md
    rw [hd] at h1
    obtain ⟨new', e', hD, -, -⟩ := h1
    have : new' = new := by rw [e] at e'; exact (List.append_cancel_left e').symm
    subst this
    exact ⟨new', e, hD, fun D hmem => (by obtain ⟨F, -, hG⟩ := hg D hmem; exact hG.dvd)⟩
  unfold barvinokSingle at h
  split at h
  · cases h
  · rename_i hB
    obtain ⟨⟨D0, hd0, hwf, hc, hv, hr⟩, D1, hd1, hwf1, hc1, hv1, hpol⟩ :=
      Barvinok.start_wf B hB vertex
    cases v with
    | dual =>
      simp only [hd0] at h
      have hprim : ∀ i, Prim (D0.rays i) := by
        intro i; rw [hr]; exact fun e he => Barvinok.matrixGCD_primitive B hB i e he
      obtain ⟨new, e, hD, hdv⟩ := hdvd D0 hwf hprim _ _ _ h
      obtain ⟨new2, e2, -, g, hg, hs⟩ := Barvinok.dfs_exact_dual_lines P hPn rfl D0 hwf _ _ _ h
      obtain ⟨new3, e3, ha⟩ := Barvinok.dfs_accepted P hPn D0 hwf _ _ _ h
      have : new2 = new := by rw [e] at e2; exact (List.append_cancel_left e2).symm
      subst this
      have : new3 = new2 := by rw [e] at e3; exact (List.append_cancel_left e3).symm
      subst this
      refine ⟨new3, e, fun D hmem => ready_of_delivered P D0 D (hD D hmem) (hdv D hmem) h0 hmax fuel
        hfuel, fun D hmem i => accepted_generic P X lam fuel rfl out new3 ha D hmem i, ?_⟩
      have := restrict_negligible vertex hg
      convert this using 1
      funext z
      have e1 : (new3.map fun D => D.coefficient * ind (cone D.rays) (rel z D.vertex)) =
          new3.map fun D => D.coefficient * ind (cone D.rays) (rel z vertex) :=
        List.map_congr_left fun D hmem => by rw [(hD D hmem).vertex, hv]
      rw [e1, hs (rel z vertex), hc, one_mul]
      have hpe : polar D0.rays = polar B := by
        unfold polar
        rw [hr, Barvinok.matrixGCD_cone B hB]
      rw [hpe]
      show ((ind (polar B) (rel z vertex) + g (rel z vertex) - ind (polar B) (rel z vertex) : ℤ) : ℚ) = _
      rw [add_sub_cancel_left]
    | irrationalAllPrimal =>
      simp only [hd0] at h
      have hprim : ∀ i, Prim (D0.rays i) := by
        intro i; rw [hr]; exact fun e he => Barvinok.matrixGCD_primitive B hB i e he
      obtain ⟨new, e, hD, hdv⟩ := hdvd D0 hwf hprim _ _ _ h
      obtain ⟨new2, e2, hs⟩ := Barvinok.dfs_lattice_exact P hPn rfl D0 hwf _ _ _ h
      obtain ⟨new3, e3, ha⟩ := Barvinok.dfs_accepted P hPn D0 hwf _ _ _ h
      have : new2 = new := by rw [e] at e2; exact (List.append_cancel_left e2).symm
      subst this
      have : new3 = new2 := by rw [e] at e3; exact (List.append_cancel_left e3).symm
      subst this
      refine ⟨new3, e, fun D hmem => ready_of_delivered P D0 D (hD D hmem) (hdv D hmem) h0 hmax fuel
        hfuel, fun D hmem i => accepted_generic P X lam fuel rfl out new3 ha D hmem i, ?_⟩
      convert Submodule.zero_mem (negligible (m + 1)) using 1
      funext z
      rw [← hs z, hc, one_mul, hr, hv, Barvinok.matrixGCD_cone B hB]
      show ((ind (cone B) (rel z vertex) - ind (cone B) (rel z vertex) : ℤ) : ℚ) = 0
      simp
    | irrationalPrimal =>
      simp only [hd1] at h
      have hwf' : Wf { D1 with vertex := irr D1 } :=
        ⟨hwf1.det_eq, hwf1.det_ne, hwf1.facets, hwf1.div_pos, hwf1.div_dvd⟩
      have h1 := Barvinok.dfs_inv P hPn _ _ rfl hwf' 0 out md
      rw [h] at h1
      obtain ⟨new, e, hD, -, -⟩ := h1
      obtain ⟨new2, e2, hs⟩ := Barvinok.dfs_lattice_exact P hPn rfl _ hwf' _ _ _ h
      obtain ⟨new3, e3, ha⟩ := Barvinok.dfs_accepted P hPn _ hwf' _ _ _ h
      have : new2 = new := by rw [e] at e2; exact (List.append_cancel_left e2).symm
      subst this
      have : new3 = new2 := by rw [e] at e3; exact (List.append_cancel_left e3).symm
      subst this
      refine ⟨new3, e, fun D hmem => ready_of_delivered P _ D (hD D hmem)
        ((hD D hmem).div_dvd rfl) h0 hmax fuel
        hfuel, fun D hmem i => accepted_generic P X lam fuel rfl out new3 ha D hmem i, ?_⟩
      convert Submodule.zero_mem (negligible (m + 1)) using 1
      funext z
      have hz := hs z
      simp only [hc1, one_mul] at hz
      rw [← hz]
      have e4 : ind (cone D1.rays) (rel z (irr D1)) = ind (polar B) (rel z vertex) := by
        unfold ind
        have i1 := hirr rfl D1 z hwf1
        have i2 : rel z D1.vertex ∈ cone D1.rays ↔ rel z vertex ∈ polar B := by
          rw [hv1]; exact hpol _
        by_cases hh : rel z vertex ∈ polar B
        · rw [if_pos hh, if_pos (i1.mpr (i2.mpr hh))]
        · rw [if_neg hh, if_neg (fun h => hh (i2.mp (i1.mp h)))]
      rw [e4]
      show ((ind (polar B) (rel z vertex) - ind (polar B) (rel z vertex) : ℤ) : ℚ) = 0
      simp

theorem decomposition_good (N : Ntl (m + 1)) (hN : N.Ok) (X : Smith.Xgcd) (v : Variant)
    (irr : Cone (m + 1) → Fin (m + 1) → ℚ) (hirr : v = .irrationalPrimal → IrrOk irr) (maxDet : ℤ)
    (h0 : maxDet ≠ 0) (hmax : maxDet ≤ Piped.intMax) (fuel : ℕ) (hfuel : maxDet < fuel)
    (lam : Vec (m + 1)) (vertex : Fin (m + 1) → ℚ) (T : List (Mat (m + 1))) :
    ∀ (out : List (Cone (m + 1))) (md : ℕ) {out' : List (Cone (m + 1))} {md' : ℕ},
    barvinokDecompositionSingle (expParams N X v maxDet fuel lam) v irr vertex T out md =
      .done true out' md' →
    ∃ new, out' = out ++ new ∧
      Good fuel lam (fun z => (T.map fun B => inputInd v vertex B z).sum) new := by
  induction T with
  | nil =>
    intro out md out' md' h
    unfold barvinokDecompositionSingle at h
    cases h
    refine ⟨[], by simp, by simp, by simp, ?_⟩
    convert Submodule.zero_mem (negligible (m + 1)) using 1
    funext z
    simp
  | cons B T ih =>
    intro out md out' md' h
    unfold barvinokDecompositionSingle at h
    split at h
    · rename_i out1 md1 h1
      obtain ⟨new1, rfl, g1⟩ := single_good N hN X v irr hirr maxDet h0 hmax fuel hfuel lam B vertex
        out md h1
      obtain ⟨new2, rfl, g2⟩ := ih _ _ h
      exact ⟨new1 ++ new2, by simp, by simpa using g1.append g2⟩
    · rename_i r hne
      exact absurd h (hne _ _)

theorem decompositionList_good (N : Ntl (m + 1)) (hN : N.Ok) (X : Smith.Xgcd) (v : Variant)
    (irr : Cone (m + 1) → Fin (m + 1) → ℚ) (hirr : v = .irrationalPrimal → IrrOk irr) (maxDet : ℤ)
    (h0 : maxDet ≠ 0) (hmax : maxDet ≤ Piped.intMax) (fuel : ℕ) (hfuel : maxDet < fuel)
    (lam : Vec (m + 1)) (cones : List ((Fin (m + 1) → ℚ) × List (Mat (m + 1)))) :
    ∀ (out : List (Cone (m + 1))) (md : ℕ) {out' : List (Cone (m + 1))} {md' : ℕ},
    decompositionList (expParams N X v maxDet fuel lam) v irr cones out md = .done true out' md' →
    ∃ new, out' = out ++ new ∧ Good fuel lam
      (fun z => (cones.map fun c => (c.2.map fun B => inputInd v c.1 B z).sum).sum) new := by
  induction cones with
  | nil =>
    intro out md out' md' h
    unfold decompositionList at h
    cases h
    refine ⟨[], by simp, by simp, by simp, ?_⟩
    convert Submodule.zero_mem (negligible (m + 1)) using 1
    funext z
    simp
  | cons c Cs ih =>
    obtain ⟨vertex, T⟩ := c
    intro out md out' md' h
    unfold decompositionList at h
    split at h
    · rename_i out1 md1 h1
      obtain ⟨new1, rfl, g1⟩ := decomposition_good N hN X v irr hirr maxDet h0 hmax fuel hfuel lam
        vertex T out md h1
      obtain ⟨new2, rfl, g2⟩ := ih _ _ h
      exact ⟨new1 ++ new2, by simp, by simpa using g1.append g2⟩
    · rename_i r hne
      exact absurd h (hne _ _)

/-- **C20, the whole count.** Decomposition (in any of the three variants, with any index bound up to
`INT_MAX`), enumeration of the parallelepipeds and exponential substitution together: if the
indicators of the given vertex cones add up to the indicator of the finite set `S` at lattice
points, up to functions with lines (Brion's theorem for a polytope and its supporting cones), then
for every vector with which the run ends normally the sum is exactly the number of points
of `S`. -/
theorem c20_count (N : Ntl (m + 1)) (hN : N.Ok) (X : Smith.Xgcd) (v : Variant)
    (irr : Cone (m + 1) → Fin (m + 1) → ℚ) (hirr : v = .irrationalPrimal → IrrOk irr) (maxDet : ℤ)
    (h0 : maxDet ≠ 0) (hmax : maxDet ≤ Piped.intMax) (fuel : ℕ) (hfuel : maxDet < fuel)
    (cones : List ((Fin (m + 1) → ℚ) × List (Mat (m + 1))))
    (S : List (Vec (m + 1))) (hS : S.Nodup) (g : Vec (m + 1) → ℚ) (hg : g ∈ negligible (m + 1))
    (hind : ∀ z, (((cones.map fun c => (c.2.map fun B => inputInd v c.1 B z).sum).sum : ℤ) : ℚ) =
      (if z ∈ S then 1 else 0) + g z)
    (lam : Vec (m + 1)) :
    (∃ e, countOnce N X v irr maxDet fuel cones lam = .error e ∧ (e = .notGeneric ∨ e = .abort)) ∨
    countOnce N X v irr maxDet fuel cones lam = .ok (S.length : ℚ) := by
  unfold countOnce
  split
  · rename_i out md h
    right
    obtain ⟨new, e, hgood⟩ := decompositionList_good N hN X v irr hirr maxDet h0 hmax fuel hfuel lam
      cones [] 0 h
    rw [List.nil_append] at e
    subst e
    refine c20_residues_count X lam fuel out hgood.ready hgood.generic S hS _
      (Submodule.add_mem _ hg hgood.sum) (fun z => ?_)
    have := hind z
    push_cast at this ⊢
    simp only [Pi.add_apply]
    linarith
  · exact Or.inl ⟨_, rfl, Or.inl rfl⟩
  · exact Or.inl ⟨_, rfl, Or.inr rfl⟩
  · exact Or.inl ⟨_, rfl, Or.inr rfl⟩

/-- **C42.** Whatever vectors are tried and however often the computation is restarted: the answer, if
there is one, is the number of points of `S`; nothing of a failed attempt is carried over. -/
theorem c42_restart (N : Ntl (m + 1)) (hN : N.Ok) (X : Smith.Xgcd) (v : Variant)
    (irr : Cone (m + 1) → Fin (m + 1) → ℚ) (hirr : v = .irrationalPrimal → IrrOk irr) (maxDet : ℤ)
    (h0 : maxDet ≠ 0) (hmax : maxDet ≤ Piped.intMax) (fuel : ℕ) (hfuel : maxDet < fuel)
    (cones : List ((Fin (m + 1) → ℚ) × List (Mat (m + 1))))
    (S : List (Vec (m + 1))) (hS : S.Nodup) (g : Vec (m + 1) → ℚ) (hg : g ∈ negligible (m + 1))
    (hind : ∀ z, (((cones.map fun c => (c.2.map fun B => inputInd v c.1 B z).sum).sum : ℤ) : ℚ) =
      (if z ∈ S then 1 else 0) + g z)
    (tries : ℕ) (guesses : ℕ → Vec (m + 1)) (r : ℤ)
    (h : decomposeAndCount N X v irr maxDet fuel cones tries guesses = .ok r) :
    r = S.length := by
  induction tries generalizing guesses with
  | zero => cases h
  | succ t ih =>
    unfold decomposeAndCount at h
    rcases c20_count N hN X v irr hirr maxDet h0 hmax fuel hfuel cones S hS g hg hind (guesses 0) with
      ⟨e, he, rfl | rfl⟩ | hok
    · rw [he] at h; exact ih _ h
    · rw [he] at h; cases h
    · rw [hok] at h
      simp at h
      exact h.symm

/-- Which attempt succeeds is determined by the vectors alone: the run with the guesses `λ₀, λ₁, …`
returns what the first attempt that does not end in `NotGenericException` returns, exactly as if that
vector had been guessed first. -/
theorem c42_first_generic (N : Ntl (m + 1)) (X : Smith.Xgcd) (v : Variant)
    (irr : Cone (m + 1) → Fin (m + 1) → ℚ) (maxDet : ℤ) (fuel : ℕ)
    (cones : List ((Fin (m + 1) → ℚ) × List (Mat (m + 1)))) (t : ℕ) (guesses : ℕ → Vec (m + 1))
    (hbad : ∀ s < t, countOnce N X v irr maxDet fuel cones (guesses s) = .error .notGeneric)
    (tries : ℕ) :
    decomposeAndCount N X v irr maxDet fuel cones (t + tries) guesses =
      decomposeAndCount N X v irr maxDet fuel cones tries (fun i => guesses (t + i)) := by
  induction t generalizing guesses with
  | zero => simp
  | succ t ih =>
    rw [show t + 1 + tries = (t + tries) + 1 by omega]
    conv_lhs => unfold decomposeAndCount
    rw [hbad 0 (by omega)]
    simp only
    rw [ih (fun i => guesses (i + 1)) (fun s hs => hbad (s + 1) (by omega))]
    congr 1
    funext i
    congr 1
    omega

end Verif.ExpSubst
