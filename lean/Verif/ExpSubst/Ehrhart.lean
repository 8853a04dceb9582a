import Verif.ExpSubst.Props
import Mathlib.Data.Nat.Choose.Sum

/-!
# Ehrhart polynomials by exponential substitution (C44)
-/

namespace Verif.ExpSubst

open Verif.Barvinok (Cone Mat Vec rel Ntl Variant Params Outcome)
open Verif.Barvinok.Spec
open PowerSeries Verif.Todd

variable {m : ℕ}

theorem ip_smul {n : ℕ} (lam u : Vec n) (N : ℤ) : ip lam (N • u) = N * ip lam u := by
  unfold ip
  rw [Finset.mul_sum]
  exact Finset.sum_congr rfl fun k _ => by rw [Pi.smul_apply, smul_eq_mul]; ring

theorem gf_shift {n : ℕ} (pts : List (Vec n)) (u : Vec n) :
    gf (pts.map fun p => p + u) = mono u * gf pts := by
  unfold gf
  induction pts with
  | nil => simp
  | cons a l ih =>
    simp only [List.map_cons, List.sum_cons] at ih ⊢
    rw [ih, mul_add, mono_add, mul_comm (mono a)]

/-- Translating the vertex by a lattice vector translates the cone. -/
theorem coneInd_shift {n : ℕ} (A : Mat n) (v : Fin n → ℚ) (u : Vec n) :
    coneInd A (fun k => v k + (u k : ℚ)) = act (mono u) (coneInd A v) := by
  funext z
  rw [act_mono]
  unfold coneInd
  congr 2
  funext k
  simp only [rel, Pi.sub_apply]
  push_cast
  ring

theorem act_den_shift {n : ℕ} (A : Mat n) (v : Fin n → ℚ) (u : Vec n) (pts : List (Vec n))
    (h : act (den A) (coneInd A v) = emb (gf pts)) :
    act (den A) (coneInd A (fun k => v k + (u k : ℚ))) = emb (gf (pts.map fun p => p + u)) := by
  rw [coneInd_shift, gf_shift, ← act_emb, ← h]
  have : act (den A) (act (mono u) (coneInd A v)) = (act (den A) * act (mono u)) (coneInd A v) := rfl
  rw [this, ← map_mul, mul_comm, map_mul]
  rfl

/-- The expansion of the powers of `⟨λ, p⟩ + N ⟨λ, ev⟩` by the binomial theorem. -/
theorem ehrhart_expand (d : ℕ) (w : List ℚ) (hl : w.length = d + 1) (products : List ℤ) (s : ℤ)
    (N : ℤ) :
    ∑ k ∈ Finset.range (d + 1), ((s ^ k : ℤ) : ℚ) *
      ehrhartInner d w (sumsOfPowers d products) k * (N : ℚ) ^ k =
    ((List.range w.length).map fun k =>
      ((sumsOfPowers d (products.map fun p => p + N * s)).getD k 0 : ℚ) * w.getD k 0).sum := by
  have h1 : ((List.range w.length).map fun k =>
      ((sumsOfPowers d (products.map fun p => p + N * s)).getD k 0 : ℚ) * w.getD k 0).sum =
      ∑ l ∈ Finset.range (d + 1), ∑ k ∈ Finset.range (l + 1),
        ((s ^ k : ℤ) : ℚ) * ((l.choose k : ℚ) * w.getD l 0 *
          ((products.map fun p => p ^ (l - k)).sum : ℤ)) * (N : ℚ) ^ k := by
    rw [hl, ← List.sum_toFinset _ List.nodup_range, List.toFinset_range]
    refine Finset.sum_congr rfl fun l hlm => ?_
    rw [Finset.mem_range] at hlm
    rw [sumsOfPowers_getD _ _ _ (by omega), List.map_map]
    induction products with
    | nil => simp
    | cons a r ih =>
      simp only [List.map_cons, List.sum_cons, Int.cast_add]
      rw [add_mul, ih, Function.comp_apply]
      have e : ((((a + N * s) ^ l : ℤ)) : ℚ) * w.getD l 0 =
          ∑ k ∈ Finset.range (l + 1), ((s ^ k : ℤ) : ℚ) * ((l.choose k : ℚ) * w.getD l 0 *
          ((a ^ (l - k) : ℤ) : ℚ)) * (N : ℚ) ^ k := by
        rw [add_comm a, Int.cast_pow, Int.cast_add, add_pow, Finset.sum_mul]
        refine Finset.sum_congr rfl fun k _ => ?_
        push_cast
        ring
      rw [e, ← Finset.sum_add_distrib]
      refine Finset.sum_congr rfl fun k _ => ?_
      ring
  rw [h1]
  have h2 : ∀ k ∈ Finset.range (d + 1), ((s ^ k : ℤ) : ℚ) *
      ehrhartInner d w (sumsOfPowers d products) k * (N : ℚ) ^ k =
      ∑ l ∈ Finset.range (d + 1), if k ≤ l then ((s ^ k : ℤ) : ℚ) * ((l.choose k : ℚ) * w.getD l 0 *
          ((products.map fun p => p ^ (l - k)).sum : ℤ)) * (N : ℚ) ^ k else 0 := by
    intro k hk
    rw [Finset.mem_range] at hk
    unfold ehrhartInner
    rw [← List.sum_toFinset _ (List.nodup_range' (step := 1)), ← Finset.sum_filter]
    have e : (List.range' k (d + 1 - k)).toFinset = (Finset.range (d + 1)).filter (k ≤ ·) := by
      ext l
      rw [List.mem_toFinset, List.mem_range'_1, Finset.mem_filter, Finset.mem_range]
      omega
    rw [e, Finset.mul_sum, Finset.sum_mul]
    refine Finset.sum_congr rfl fun l hlm => ?_
    simp only [Finset.mem_filter, Finset.mem_range] at hlm
    rw [sumsOfPowers_getD _ _ _ (by omega)]
  rw [Finset.sum_congr rfl h2, Finset.sum_comm]
  refine Finset.sum_congr rfl fun l hlm => ?_
  rw [Finset.mem_range] at hlm
  rw [← Finset.sum_filter]
  refine Finset.sum_congr ?_ fun _ _ => rfl
  ext k
  simp only [Finset.mem_filter, Finset.mem_range]
  omega

/-- The contribution of one cone to the Ehrhart polynomial, evaluated at `N`. -/
theorem ehrhartSingle_ok (X : Smith.Xgcd) (lam : Vec (m + 1)) (fuel : ℕ) (C : Cone (m + 1))
    (ev : Vec (m + 1)) (hC : Ready fuel C) (hgen : ∀ i, ip lam (C.rays i) ≠ 0) :
    ∃ (pts : List (Vec (m + 1))) (c : ℕ → ℚ),
      act (den C.rays) (coneInd C.rays C.vertex) = emb (gf pts) ∧
      ehrhartSingle X lam C ev fuel = .ok c ∧
      ∀ N : ℤ, ∑ k ∈ Finset.range (m + 2), c k * (N : ℚ) ^ k =
        (C.coefficient : ℚ) * coeff (m + 1)
          (phi lam (gf (pts.map fun p => p + N • ev)) * coneSeries lam C.rays) := by
  obtain ⟨pts, h1, h2, h3⟩ := coneScalarProducts_ok X lam fuel C hC
  obtain ⟨F, hF, hG⟩ := hC.facets
  obtain ⟨w, P, hw, hl, hwk⟩ := residueWeights_ok lam C.rays hgen
  refine ⟨pts, fun k => (C.coefficient : ℚ) * ((inner lam ev ^ k : ℤ) : ℚ) *
    ehrhartInner (m + 1) w (sumsOfPowers (m + 1) (pts.map (ip lam))) k,
    act_cone C F hG pts h1 h2, ?_, fun N => ?_⟩
  · unfold ehrhartSingle
    simp only [hw, h3]
    rfl
  · rw [← weighted_sum lam C.rays w hl hwk]
    have e1 : (pts.map fun p => p + N • ev).map (ip lam) =
        (pts.map (ip lam)).map fun p => p + N * inner lam ev := by
      rw [List.map_map, List.map_map]
      refine List.map_congr_left fun p _ => ?_
      simp only [Function.comp_apply]
      rw [ip_add, ip_smul]
      rfl
    rw [e1, ← ehrhart_expand (m + 1) w hl, Finset.mul_sum]
    refine Finset.sum_congr rfl fun k _ => ?_
    ring

theorem ehrhartSum_ok (X : Smith.Xgcd) (lam : Vec (m + 1)) (fuel : ℕ)
    (cones : List (Cone (m + 1) × Vec (m + 1)))
    (val : Cone (m + 1) × Vec (m + 1) → ℕ → ℚ)
    (h : ∀ c ∈ cones, ehrhartSingle X lam c.1 c.2 fuel = .ok (val c)) (r : ℕ → ℚ) :
    ehrhartSum X lam fuel cones r = .ok (fun k => r k + (cones.map fun c => val c k).sum) := by
  induction cones generalizing r with
  | nil => simp [ehrhartSum]
  | cons c Cs ih =>
    obtain ⟨C, ev⟩ := c
    unfold ehrhartSum
    rw [h (C, ev) (by simp)]
    show ehrhartSum X lam fuel Cs (fun k => r k + val (C, ev) k) = _
    rw [ih (fun D hD => h D (by simp [hD]))]
    congr 1
    funext k
    rw [List.map_cons, List.sum_cons, add_assoc]

/-- **C44.** Let `cones` be signed simplicial cones, each with an integer direction `ev` in which its
vertex moves as the polytope is dilated. The coefficients computed for any vector not orthogonal to
a ray are those of the counting polynomial: for every dilation factor `N` for which the indicators of
the moved cones add up to that of a finite set `S` (up to functions with lines), the polynomial
takes the value `|S|` at `N`. -/
theorem c44_ehrhart (X : Smith.Xgcd) (lam : Vec (m + 1)) (fuel : ℕ)
    (cones : List (Cone (m + 1) × Vec (m + 1))) (hready : ∀ c ∈ cones, Ready fuel c.1)
    (hgen : ∀ c ∈ cones, ∀ i, ∑ k, lam k * c.1.rays i k ≠ 0) :
    ∃ coeffs : ℕ → ℚ, ehrhartSum X lam fuel cones (fun _ => 0) = .ok coeffs ∧
      ∀ (N : ℤ) (S : List (Vec (m + 1))) (_ : S.Nodup) (g : Vec (m + 1) → ℚ)
        (_ : g ∈ negligible (m + 1))
        (_ : ∀ z, (((cones.map fun c => c.1.coefficient *
          ind (cone c.1.rays) (rel z fun k => c.1.vertex k + N * c.2 k)).sum : ℤ) : ℚ)
            = (if z ∈ S then 1 else 0) + g z),
        ∑ k ∈ Finset.range (m + 2), coeffs k * (N : ℚ) ^ k = S.length := by
  classical
  have hex : ∀ c : Cone (m + 1) × Vec (m + 1), ∃ (x : List (Vec (m + 1)) × (ℕ → ℚ)), c ∈ cones →
      act (den c.1.rays) (coneInd c.1.rays c.1.vertex) = emb (gf x.1) ∧
      ehrhartSingle X lam c.1 c.2 fuel = .ok x.2 ∧
      ∀ N : ℤ, ∑ k ∈ Finset.range (m + 2), x.2 k * (N : ℚ) ^ k =
        (c.1.coefficient : ℚ) * coeff (m + 1)
          (phi lam (gf (x.1.map fun p => p + N • c.2)) * coneSeries lam c.1.rays) := by
    intro c
    by_cases hc : c ∈ cones
    · obtain ⟨pts, v, h⟩ := ehrhartSingle_ok X lam fuel c.1 c.2 (hready c hc) (hgen c hc)
      exact ⟨(pts, v), fun _ => h⟩
    · exact ⟨([], fun _ => 0), fun h => absurd h hc⟩
  choose x hx using hex
  refine ⟨_, ehrhartSum_ok X lam fuel cones (fun c => (x c).2) (fun c hc => (hx c hc).2.1) _, ?_⟩
  intro N S hS g hg hind
  have hcount := counting (ι := Fin cones.length) lam (fun i => (cones[i].1.coefficient : ℚ))
    (fun i => den cones[i].1.rays) (fun i => (x cones[i]).1.map fun p => p + N • cones[i].2)
    (fun i => coneInd cones[i].1.rays
      (fun k => cones[i].1.vertex k + (((N • cones[i].2) k : ℤ) : ℚ)))
    (fun i => act_den_shift _ _ _ _ (hx _ (List.getElem_mem _)).1) S hS g hg
    (fun z => by
      rw [← hind z]
      have : ((cones.map fun c => c.1.coefficient *
          ind (cone c.1.rays) (rel z fun k => c.1.vertex k + N * c.2 k)).sum : ℤ) =
          ∑ i : Fin cones.length, cones[i].1.coefficient *
            ind (cone cones[i].1.rays) (rel z fun k => cones[i].1.vertex k + N * cones[i].2 k) := by
        rw [← List.sum_ofFn]
        congr 1
        apply List.ext_getElem (by simp)
        intro i h1 h2
        simp
      rw [this]
      push_cast
      refine Finset.sum_congr rfl fun i _ => ?_
      unfold coneInd
      simp only [Pi.smul_apply, smul_eq_mul, Int.cast_mul])
    (m + 1) (fun i => coneSeries lam cones[i].1.rays)
    (fun i => phi_den lam _ (hgen _ (List.getElem_mem _)))
  rw [hcount]
  have e1 : ∀ i : Fin cones.length, (cones[i].1.coefficient : ℚ) * coeff (m + 1)
      (phi lam (gf ((x cones[i]).1.map fun p => p + N • cones[i].2)) *
        coneSeries lam cones[i].1.rays) =
      ∑ k ∈ Finset.range (m + 2), (x cones[i]).2 k * (N : ℚ) ^ k :=
    fun i => ((hx _ (List.getElem_mem _)).2.2 N).symm
  rw [Finset.sum_congr rfl fun i _ => e1 i, Finset.sum_comm]
  refine Finset.sum_congr rfl fun k _ => ?_
  rw [zero_add, ← Finset.sum_mul]
  congr 1
  rw [← List.sum_ofFn]
  congr 1
  apply List.ext_getElem (by simp)
  intro i h1 h2
  simp

end Verif.ExpSubst
