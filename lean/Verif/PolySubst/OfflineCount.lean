import Verif.PolySubst.OfflineProps
import Verif.PolySubst.Total
import Verif.Preprocess.Model

/-!
# The number computed by `Residue` (C72)

No bound on the number of terms is needed here: the precision grows with the number of cones.
-/

namespace Verif.PolySubst

open PowerSeries
open Verif.Barvinok (Cone Mat Vec Ntl Variant rel)
open Verif.Barvinok.Spec
open Verif.ExpSubst

variable {n m : ℕ}

/-! ### Translated exponents -/

theorem normalizeTerm_shift (dots : List ℤ) (e c s : ℤ) :
    normalizeTerm dots (e - c) s = ((normalizeTerm dots e s).1, (normalizeTerm dots e s).2.1 - c, (normalizeTerm dots e s).2.2) := by
  induction dots generalizing e s with
  | nil => rfl
  | cons k l ih =>
    unfold normalizeTerm
    split_ifs
    · rw [show e - c + -k = e + -k - c by ring, ih]
    · rw [ih]

theorem contribution_shift (T : ℤ) (dots : List ℤ) (e c s : ℤ) :
    contribution T (normalizeTerm dots e s).1 ((normalizeTerm dots e s).2.1 - c) (normalizeTerm dots e s).2.2 = term T dots (e - c) s := by
  unfold term
  rw [normalizeTerm_shift]

/-- Counting with all exponents translated by `c`. -/
theorem exact_count_shift {β : Type*} (c : ℤ) (lam : Lat n) (d : ℕ) (cones : List β) (eps : β → ℤ) (rays pts : β → List (Lat n))
    (hd : ∀ c ∈ cones, (rays c).length = d) (K : β → Lat n → ℚ)
    (hK : ∀ c ∈ cones, act (den' (rays c)) (K c) = emb (gf (pts c))) (hgen : ∀ c ∈ cones, ∀ r ∈ rays c, ip lam r ≠ 0)
    (S : List (Lat n)) (hS : S.Nodup) (g : Lat n → ℚ) (hg : g ∈ negligible n)
    (h : ∀ p, (cones.map fun c => (eps c : ℚ) * K c p).sum = (if p ∈ S then 1 else 0) + g p) :
    (cones.map fun x => (eps x : ℚ) * coeff d (wz c * (psi lam (gf (pts x)) * series lam (rays x)))).sum = (S.length : ℚ) := by
  have h1 := cleared (ι := Fin cones.length) (fun i => (eps cones[i] : ℚ)) (fun i => den' (rays cones[i])) (fun i => gf (pts cones[i]))
    (fun i => K cones[i]) (fun i => hK _ (List.getElem_mem _)) (gf S) g hg (by
      funext p
      rw [Finset.sum_apply, Pi.add_apply, emb_gf S hS, ← h p, ← List.sum_ofFn]
      congr 1
      apply List.ext_getElem (by simp)
      intro i h1 h2
      simp)
  have h2 := congrArg (fun f => coeff d (wz c * f))
    (substituted_hom (psi lam) _ _ _ _ h1 d (fun i => series lam (rays cones[i])) (fun i => by
    have := psi_den lam (rays cones[i]) (hgen _ (List.getElem_mem _))
    rw [hd cones[i] (List.getElem_mem _)] at this
    exact this))
  beta_reduce at h2
  rw [mul_left_comm, coeff_X_pow_mul', if_pos le_rfl, Nat.sub_self, coeff_zero_eq_constantCoeff_apply, map_mul, constCoeff_wz, one_mul,
    constCoeff_psi_gf, Finset.mul_sum, map_sum] at h2
  rw [h2, ← List.sum_ofFn]
  congr 1
  apply List.ext_getElem (by simp)
  intro i h3 h4
  simp only [List.getElem_map, List.getElem_ofFn, mul_smul_comm, map_smul, smul_eq_mul]
  rfl

/-! ### The big loop -/

/-- What one cone contributes, before rounding. -/
noncomputable def exactTerm (c : ℤ) (lam : Lat n) (eps : ℤ) (rays : List (Lat n)) (pt : Lat n) : ℚ :=
  eps * coeff rays.length (wz c * (psi lam (gf [pt]) * series lam rays))

theorem term_below (T c : ℤ) (lam : Lat n) (eps : ℤ) (rays : List (Lat n)) (h0 : rays ≠ []) (hg : ∀ r ∈ rays, ip lam r ≠ 0) (pt : Lat n) :
    ∃ t, term T (rays.map (ip lam)) (c + ip lam pt) eps = some t ∧ Below ((T : ℚ) * ((-1) ^ rays.length * exactTerm c lam eps rays pt)) 1 t := by
  have ht := term_spec T (rays.map (ip lam)) (by simpa using h0)
    (by intro x hx; obtain ⟨r, hr, rfl⟩ := List.mem_map.1 hx; exact hg r hr) (c + ip lam pt) eps
  rw [List.length_map, List.map_map] at ht
  refine ⟨_, ht, ?_⟩
  have e : exactTerm c lam eps rays pt = eps * coeff rays.length (wz (c + ip lam pt) * (rays.map (F ∘ ip lam)).prod) := by
    unfold exactTerm
    rw [psi_gf, List.map_cons, List.map_nil, List.sum_cons, List.sum_nil, add_zero, wz_add, mul_assoc]
    rfl
  rw [e]
  exact below_floor _

/-- `tenPow` is more than ten times the number of cones. -/
theorem tenPow_large (k : ℕ) : ∀ p : ℤ, 0 < p → ((k : ℤ) + 1) * p ≤ tenPow k p := by
  induction k using Nat.strong_induction_on with
  | _ k ih =>
    intro p hp
    cases k with
    | zero => unfold tenPow; simp
    | succ i =>
      unfold tenPow
      have h2 := ih ((i + 1) / 10) (by omega) (p * 10) (by omega)
      refine le_trans ?_ h2
      have h3 : (((i + 1 : ℕ) : ℤ) + 1) ≤ (((i + 1) / 10 : ℕ) + 1) * 10 := by omega
      calc (((i + 1 : ℕ) : ℤ) + 1) * p ≤ ((((i + 1) / 10 : ℕ) : ℤ) + 1) * 10 * p := mul_le_mul_of_nonneg_right h3 hp.le
        _ = _ := by ring

theorem getD_map_range {α : Type*} (l : List α) (d : α) : ((List.range l.length).map fun j => l.getD j d) = l := by
  apply List.ext_getElem (by simp)
  intro i h1 h2
  simp only [List.getElem_map, List.getElem_range]
  rw [List.getD_eq_getElem _ _ h2]

/-- The terms of a list of cones, put by `f` into the space `Residue` works in. -/
theorem bigLoop_spec {β : Type*} (T c : ℤ) (lam : Lat (m + 1)) (lam' : Lat n) (e0 : ℤ) (noGs : ℕ) (h0 : noGs ≠ 0) (dots : ℕ → ℤ)
    (eps : β → ℤ) (rays : β → List (Lat n)) (pt : β → Lat n) (off : β → OffCone (m + 1)) :
    ∀ (cones : List β) (i : ℕ),
    (∀ x ∈ cones, (off x).coefficient = eps x ∧ (rays x).length = noGs ∧ (off x).rays.map (ip lam) = (rays x).map (ip lam') ∧
      ip lam ((off x).points.headD 0) = e0 + ip lam' (pt x)) →
    (∀ a (ha : a < cones.length), ∀ j < noGs, dots ((i + a) * noGs + j) = gen lam (off cones[a]).rays j ∧ gen lam (off cones[a]).rays j ≠ 0) →
    ∀ acc, ∃ t, bigLoop T c (normalized noGs lam dots (cones.map off) i) acc = some (acc + t) ∧
      Below ((T : ℚ) * ((-1) ^ noGs * (cones.map fun x => exactTerm (e0 - c) lam' (eps x) (rays x) (pt x)).sum)) cones.length t := by
  intro cones
  induction cones with
  | nil =>
    intro i _ _ acc
    exact ⟨0, by simp [normalized, bigLoop], by simpa using below_zero⟩
  | cons x l ih =>
    intro i hx hd acc
    obtain ⟨hc, hl, hr, hp⟩ := hx x List.mem_cons_self
    have hd0 : ((List.range noGs).map fun j => dots (i * noGs + j)) = (rays x).map (ip lam') := by
      rw [← hr]
      have hl' : (off x).rays.length = noGs := by
        have := congrArg List.length hr
        rw [List.length_map, List.length_map] at this
        rw [this, hl]
      have := getD_map_range (off x).rays 0
      rw [hl'] at this
      conv_rhs => rw [← this]
      rw [List.map_map]
      refine List.map_congr_left fun j hj => ?_
      have := (hd 0 (by simp) j (List.mem_range.1 hj)).1
      rw [Nat.add_zero] at this
      exact this
    have hne : rays x ≠ [] := by intro h; rw [h] at hl; exact h0 hl.symm
    have hgen : ∀ r ∈ rays x, ip lam' r ≠ 0 := by
      intro r hr'
      have : ip lam' r ∈ (rays x).map (ip lam') := List.mem_map_of_mem hr'
      rw [← hd0] at this
      obtain ⟨j, hj, e⟩ := List.mem_map.1 this
      have h2 := hd 0 (by simp) j (List.mem_range.1 hj)
      rw [Nat.add_zero] at h2
      rw [← e, h2.1]
      exact h2.2
    obtain ⟨t, ht, hb⟩ := term_below T (e0 - c) lam' (eps x) (rays x) hne hgen (pt x)
    obtain ⟨u, hu, hbu⟩ := ih (i + 1) (fun y hy => hx y (List.mem_cons_of_mem _ hy)) (fun a ha j hj => by
      have := hd (a + 1) (by simpa using ha) j hj
      rw [show i + (a + 1) = i + 1 + a by ring] at this
      simpa using this) (acc + t)
    refine ⟨t + u, ?_, ?_⟩
    · rw [List.map_cons]
      unfold normalized bigLoop
      rw [hd0, contribution_shift]
      have e1 : (∑ k, lam k * ((off x).points.headD 0) k) - c = e0 - c + ip lam' (pt x) := by
        have : ip lam ((off x).points.headD 0) = ∑ k, lam k * ((off x).points.headD 0) k := rfl
        rw [← this, hp]; ring
      rw [e1, hc, ht]
      show bigLoop T c _ (acc + t) = _
      rw [hu, add_assoc]
    · rw [hl] at hb
      rw [List.map_cons, List.sum_cons, List.length_cons, Nat.add_comm l.length 1, mul_add, mul_add]
      exact hb.add hbu

/-! ### The whole of `Residue` -/

/-- The cones `x`, given in the reduced lattice by sign, rays and the point of the parallelepiped, put back into the original coordinates: `p` is a lattice
point of the affine hull, the rows of `B` are a basis of its lattice (`Preprocess.projectUp`). -/
def lifted {β : Type*} (p : Vec (m + 1)) (B : Fin n → Vec (m + 1)) (eps : β → ℤ) (rays : β → List (Vec n)) (pt : β → Vec n) (x : β) : OffCone (m + 1) :=
  ⟨eps x, [(Preprocess.projectUp p B (pt x) (rays x)).1], (Preprocess.projectUp p B (pt x) (rays x)).2⟩

theorem ip_lift (lam : Vec (m + 1)) (B : Fin n → Vec (m + 1)) (u : Vec n) :
    ip lam (fun k => ∑ j, B j k * u j) = ip (fun j => ip lam (B j)) u := by
  unfold ip
  simp only [Finset.mul_sum, Finset.sum_mul]
  rw [Finset.sum_comm]
  refine Finset.sum_congr rfl fun j _ => Finset.sum_congr rfl fun k _ => by ring

/-- **C72, the number.** Signed cones with one lattice point each in their parallelepipeds, whose indicator functions add up to the indicator of a finite
set `S` up to functions with lines, are put into the original coordinates.  Whatever vector the search ends with, and however many cones there are, the
number returned is the number of points of `S`. -/
theorem c72_number {β : Type*} (p : Vec (m + 1)) (B : Fin n → Vec (m + 1)) (d : ℕ) (hd0 : d ≠ 0) (cones : List β) (hne : cones ≠ [])
    (eps : β → ℤ) (rays : β → List (Lat n)) (pt : β → Lat n)
    (hd : ∀ c ∈ cones, (rays c).length = d) (hint : (d : ℤ) * cones.length ≤ Piped.intMax) (K : β → Lat n → ℚ)
    (hK : ∀ c ∈ cones, act (den' (rays c)) (K c) = emb (gf [pt c]))
    (S : List (Lat n)) (hS : S.Nodup) (g : Lat n → ℚ) (hg : g ∈ negligible n)
    (h : ∀ q, (cones.map fun c => (eps c : ℚ) * K c q).sum = (if q ∈ S then 1 else 0) + g q)
    (tries : ℕ) (guesses : ℕ → Vec (m + 1)) :
    residue (cones.map (lifted p B eps rays pt)) tries guesses = .ok (S.length : ℤ) ∨
    residue (cones.map (lifted p B eps rays pt)) tries guesses = .error .fuel ∧
      ∀ t < tries, ∃ c ∈ cones, ∃ r ∈ (lifted p B eps rays pt c).rays, ip (guesses t) r = 0 := by
  have hlen : ∀ c ∈ cones, (lifted p B eps rays pt c).rays.length = d := by
    intro c hc
    simp only [lifted, Preprocess.projectUp, List.length_map, hd c hc]
  obtain ⟨c0, cs, hcons⟩ : ∃ c0 cs, cones = c0 :: cs := List.exists_cons_of_ne_nil hne
  have hhead : cones.map (lifted p B eps rays pt) = lifted p B eps rays pt c0 :: cs.map (lifted p B eps rays pt) := by rw [hcons, List.map_cons]
  have hunf : residue (cones.map (lifted p B eps rays pt)) tries guesses =
      match findLambda d ((cones.map (lifted p B eps rays pt)).map (·.rays)) tries guesses with
      | none => .error .fuel
      | some (lam, dots) =>
        match bigLoop (tenPow cones.length 10)
          (translation lam ((normalized d lam dots (cones.map (lifted p B eps rays pt)) 0).map fun r => r.2.1))
          (normalized d lam dots (cones.map (lifted p B eps rays pt)) 0) 0 with
        | none => .error .undefined
        | some total => .ok (roundTotal (tenPow cones.length 10) total) := by
    have a1 : ((cones.map (lifted p B eps rays pt)).any fun C => C.points.length != 1) = false := by
      rw [List.any_eq_false]
      intro C hC
      obtain ⟨c, -, rfl⟩ := List.mem_map.1 hC
      simp [lifted]
    have a2 : ((cones.map (lifted p B eps rays pt)).any fun C => C.rays.length != d) = false := by
      rw [List.any_eq_false]
      intro C hC
      obtain ⟨c, hc, rfl⟩ := List.mem_map.1 hC
      simp [hlen c hc]
    have hl0 : (lifted p B eps rays pt c0).rays.length = d := hlen c0 (by rw [hcons]; exact List.mem_cons_self)
    have hl1 : (cones.map (lifted p B eps rays pt)).length = cones.length := List.length_map _
    unfold residue
    rw [hhead]
    simp only
    rw [← hhead, hl0, a1, a2, hl1, if_neg (by simp), if_neg (by simp), if_neg (not_lt.2 hint)]
    rfl
  rw [hunf]
  cases hf : findLambda d ((cones.map (lifted p B eps rays pt)).map (·.rays)) tries guesses with
  | none =>
    right
    refine ⟨rfl, fun t ht => ?_⟩
    by_contra hcon
    push Not at hcon
    have := c72_search_ends d ((cones.map (lifted p B eps rays pt)).map (·.rays)) tries guesses t ht (fun i hi j hj => by
      have hi' : i < cones.length := by simpa using hi
      simp only [List.getElem_map]
      have hj' : j < (lifted p B eps rays pt cones[i]).rays.length := by rw [hlen _ (List.getElem_mem _)]; exact hj
      unfold gen
      rw [List.getD_eq_getElem _ _ hj']
      exact hcon _ (List.getElem_mem _) _ (List.getElem_mem _))
    rw [hf] at this
    cases this
  | some r =>
    left
    obtain ⟨lam, dots⟩ := r
    have hfound := c72_vector d _ tries guesses lam dots hf
    simp only
    set c := translation lam ((normalized d lam dots (cones.map (lifted p B eps rays pt)) 0).map fun r => r.2.1) with hc
    set lam' : Lat n := fun j => ip lam (B j) with hlam'
    have hrays : ∀ x, (lifted p B eps rays pt x).rays.map (ip lam) = (rays x).map (ip lam') := by
      intro x
      simp only [lifted, Preprocess.projectUp, List.map_map]
      refine List.map_congr_left fun r _ => ?_
      exact ip_lift lam B r
    have hgen' : ∀ x ∈ cones, ∀ r ∈ rays x, ip lam' r ≠ 0 := by
      intro x hx r hr
      have h1 : ip lam' r ∈ (lifted p B eps rays pt x).rays.map (ip lam) := by rw [hrays]; exact List.mem_map_of_mem hr
      obtain ⟨q, hq, e⟩ := List.mem_map.1 h1
      obtain ⟨i, hi, rfl⟩ := List.mem_iff_getElem.1 hx
      obtain ⟨j, hj, rfl⟩ := List.mem_iff_getElem.1 hq
      have h2 := (hfound i (by simpa using hi) j (by rw [← hlen _ hx]; exact hj)).2
      simp only [List.getElem_map] at h2
      unfold gen at h2
      rw [List.getD_eq_getElem _ _ hj] at h2
      rw [← e]
      exact h2
    obtain ⟨t, ht, hb⟩ := bigLoop_spec (tenPow cones.length 10) c lam lam' (ip lam p) d hd0 dots eps rays pt (lifted p B eps rays pt) cones 0
      (fun x hx => ⟨rfl, hd x hx, hrays x, by
        simp only [lifted, Preprocess.projectUp, List.headD_cons]
        rw [← ip_lift lam B (pt x), ← ip_add]
        rfl⟩)
      (fun a ha j hj => by
        have := hfound a (by simpa using ha) j hj
        rw [Nat.zero_add]
        simpa using this) 0
    rw [ht, zero_add]
    simp only
    congr 1
    have hsum : (cones.map fun x => exactTerm (ip lam p - c) lam' (eps x) (rays x) (pt x)).sum = (S.length : ℚ) := by
      rw [← exact_count_shift (ip lam p - c) lam' d cones eps rays (fun x => [pt x]) hd K hK hgen' S hS g hg h]
      congr 1
      refine List.map_congr_left fun x hx => ?_
      unfold exactTerm
      rw [hd x hx]
    rw [hsum] at hb
    have hT := tenPow_large cones.length 10 (by norm_num)
    exact round_ok _ d S.length cones.length (by omega) (by omega) t hb

end Verif.PolySubst
