import Verif.Lawrence.Resid
import Mathlib.RingTheory.LaurentSeries

/-! What a run of the Lawrence code returns, in terms of Laurent expansions. -/

namespace Latte.Lawrence

open Latte.Residue PowerSeries

/-- coefficient of `ε^0` in the Laurent expansion of `N/D` at `ε = 0` -/
noncomputable def laurent0 (N D : ℚ⟦X⟧) : ℚ := ((N : LaurentSeries ℚ) / (D : LaurentSeries ℚ)).coeff 0

theorem laurent0_eq (N U : ℚ⟦X⟧) (κ : ℚ) (p : Nat) (hκ : κ ≠ 0) (hU : constantCoeff U ≠ 0) :
    laurent0 N (C κ * X ^ p * U) = coeff p (N * U⁻¹) / κ := by
  unfold laurent0
  have hx : ((X : ℚ⟦X⟧) : LaurentSeries ℚ) ≠ 0 := by
    rw [PowerSeries.coe_X]; exact HahnSeries.single_ne_zero one_ne_zero
  have hUU : (U : LaurentSeries ℚ) * ((U⁻¹ : ℚ⟦X⟧) : LaurentSeries ℚ) = 1 := by
    rw [← PowerSeries.coe_mul, PowerSeries.mul_inv_cancel U hU, PowerSeries.coe_one]
  have hU0 : (U : LaurentSeries ℚ) ≠ 0 := left_ne_zero_of_mul_eq_one hUU
  have hk : ((C κ : ℚ⟦X⟧) : LaurentSeries ℚ) ≠ 0 := by
    rw [PowerSeries.coe_C]; exact (map_ne_zero HahnSeries.C).2 hκ
  have hpow : (HahnSeries.single (-(p : ℤ)) (1 : ℚ)) * (((X : ℚ⟦X⟧) : LaurentSeries ℚ)) ^ p = 1 := by
    rw [PowerSeries.coe_X, HahnSeries.single_pow, HahnSeries.single_mul_single]
    simp
  have key : (N : LaurentSeries ℚ) / ((C κ * X ^ p * U : ℚ⟦X⟧) : LaurentSeries ℚ)
      = HahnSeries.single (-(p : ℤ)) (1 : ℚ) * ((C κ⁻¹ * (N * U⁻¹) : ℚ⟦X⟧) : LaurentSeries ℚ) := by
    rw [PowerSeries.coe_mul, PowerSeries.coe_mul, PowerSeries.coe_pow, PowerSeries.coe_mul, PowerSeries.coe_mul,
      div_eq_iff (mul_ne_zero (mul_ne_zero hk (pow_ne_zero _ hx)) hU0)]
    have hkk : ((C κ⁻¹ : ℚ⟦X⟧) : LaurentSeries ℚ) * ((C κ : ℚ⟦X⟧) : LaurentSeries ℚ) = 1 := by
      rw [← PowerSeries.coe_mul, ← map_mul, inv_mul_cancel₀ hκ, map_one, PowerSeries.coe_one]
    generalize ((C κ⁻¹ : ℚ⟦X⟧) : LaurentSeries ℚ) = k' at *
    generalize ((C κ : ℚ⟦X⟧) : LaurentSeries ℚ) = k at *
    generalize ((U⁻¹ : ℚ⟦X⟧) : LaurentSeries ℚ) = u' at *
    generalize (U : LaurentSeries ℚ) = u at *
    generalize (N : LaurentSeries ℚ) = nn at *
    change (HahnSeries.single (-(p : ℤ)) (1 : ℚ)) * ((HahnSeries.ofPowerSeries ℤ ℚ) X) ^ p = 1 at hpow
    generalize ((HahnSeries.ofPowerSeries ℤ ℚ) X) ^ p = xp at *
    generalize (HahnSeries.single (-(p : ℤ)) (1 : ℚ)) = xi at *
    calc nn = nn * (xi * xp) * (k' * k) * (u * u') := by rw [hpow, hkk, hUU]; ring
      _ = _ := by ring
  rw [key]
  have := HahnSeries.coeff_single_mul_add (r := (1 : ℚ)) (x := ((C κ⁻¹ * (N * U⁻¹) : ℚ⟦X⟧) : LaurentSeries ℚ)) (a := (p : ℤ)) (b := -(p : ℤ))
  rw [show (p : ℤ) + -(p : ℤ) = 0 by ring] at this
  rw [this, one_mul, LaurentSeries.coeff_coe_powerSeries, coeff_C_mul]
  field_simp

/-- `∏ <r, l + ε e>` over the rays of a cone -/
noncomputable def denPS (l e : List Int) (c : Cone) : ℚ⟦X⟧ := (c.rays.map fun r => lin (dot l r : Int) (dot e r : Int)).prod

/-- `<v, l + ε e>` -/
noncomputable def numPS (l e : List Int) (c : Cone) : ℚ⟦X⟧ := lin (dot c.vertex l : Int) (dot e c.vertex : Int)

/-- the contribution of a cone: `|det| · [ε^0] <v, l+εe>^(m+d) / ∏ <r, l+εe>`; cones with `<v,l> = 0` are skipped. -/
noncomputable def coneVal (n d m : Nat) (l e : List Int) (c : Cone) : ℚ :=
  if dot c.vertex l = 0 then 0 else (absDet n c.rays : ℚ) * laurent0 (numPS l e c ^ (m + d)) (denPS l e c)

/-- the perturbation `e` resolves all poles of the cones with `<v,l> ≠ 0` -/
def Resolves (l e : List Int) (c : Cone) : Prop := dot c.vertex l ≠ 0 → ∀ r ∈ c.rays, dot l r = 0 → dot e r ≠ 0

/-! ### states of a term -/

structure Wf (d : Nat) (t : LTerm) : Prop where
  rdp : t.rdp.length = d
  rays : t.cone.rays.length = d

def constPow (rdp : List LP) : List (Int × Int) := rdp.map fun q => (q.constant, q.power)

structure Mid (n : Nat) (l : List Int) (t : LTerm) : Prop where
  const : t.num.constant = dot t.cone.vertex l
  zero : dot t.cone.vertex l = 0 → t.dbz = false
  det : dot t.cone.vertex l ≠ 0 → t.det = absDet n t.cone.rays
  dbz : dot t.cone.vertex l ≠ 0 → t.dbz = t.cone.rays.any fun r => dot l r = 0
  rdp : dot t.cone.vertex l ≠ 0 → constPow t.rdp = t.cone.rays.map fun r => (dot l r, 0)

structure Ready (n : Nat) (l e : List Int) (t : LTerm) : Prop extends Mid n l t where
  res : Resolves l e t.cone
  eps : t.dbz = true → t.rdp = (t.cone.rays.map fun r => ⟨dot l r, dot e r, 0⟩) ∧ t.num.epsilon = dot e t.cone.vertex

theorem dotL_spec (d : Nat) (l : List Int) (t : LTerm) (h : Wf d t) :
    Wf d (dotL l t) ∧ Mid l.length l (dotL l t) ∧ (dotL l t).cone = t.cone := by
  have hlen : t.rdp.drop t.cone.rays.length = [] := by
    rw [List.drop_eq_nil_iff, h.rdp, h.rays]
  unfold dotL
  simp only
  split_ifs with hc
  · refine ⟨⟨h.rdp, h.rays⟩, ⟨?_, ?_, ?_, ?_, ?_⟩, rfl⟩ <;> simp [hc]
  · refine ⟨⟨?_, h.rays⟩, ⟨rfl, fun h0 => absurd h0 hc, fun _ => rfl, fun _ => rfl, fun _ => ?_⟩, rfl⟩
    · simp only; rw [hlen]; simp [h.rays]
    · simp only; rw [hlen]; simp [constPow]

theorem epsLoop_spec (e l : List Int) (rays : List (List Int)) : ∀ rdp : List LP,
    constPow rdp = (rays.map fun r => (dot l r, (0 : Int))) →
    constPow (epsLoop e rays rdp).1 = (rays.map fun r => (dot l r, (0 : Int))) ∧
    ((epsLoop e rays rdp).2 = false → (epsLoop e rays rdp).1 = (rays.map fun r => (⟨dot l r, dot e r, 0⟩ : LP)) ∧
      ∀ r ∈ rays, dot l r = 0 → dot e r ≠ 0) ∧
    ((epsLoop e rays rdp).2 = true → ∃ r ∈ rays, dot l r = 0 ∧ dot e r = 0) := by
  induction rays with
  | nil =>
    intro rdp h
    have : rdp = [] := by simpa [constPow] using h
    subst this
    simp [epsLoop, constPow]
  | cons r rs ih =>
    intro rdp h
    cases rdp with
    | nil => simp [constPow] at h
    | cons p ps =>
      simp only [constPow, List.map_cons, List.cons.injEq, Prod.mk.injEq] at h
      obtain ⟨⟨hc, hp⟩, ht⟩ := h
      obtain ⟨i1, i2, i3⟩ := ih ps ht
      rw [epsLoop]
      simp only
      split_ifs with h0
      · refine ⟨?_, by simp, fun _ => ⟨r, by simp, by rw [← hc]; exact h0.1, h0.2⟩⟩
        simp only [constPow, List.map_cons, hc, hp]
        rw [ht]
      · refine ⟨?_, ?_, ?_⟩
        · simp only [constPow, List.map_cons, hc, hp]
          unfold constPow at i1
          rw [i1]
        · intro hf
          obtain ⟨j1, j2⟩ := i2 hf
          refine ⟨?_, ?_⟩
          · rw [List.map_cons, j1, ← hc]
            cases p; simp_all
          · intro r' hr'
            rcases List.mem_cons.1 hr' with rfl | hr'
            · intro hl he; exact h0 ⟨by rw [hc]; exact hl, he⟩
            · exact j2 r' hr'
        · intro ht
          obtain ⟨r', hr', h'⟩ := i3 ht
          exact ⟨r', by simp [hr'], h'⟩

theorem dotE_spec (n d : Nat) (l e : List Int) (t : LTerm) (hw : Wf d t) (h : Mid n l t) :
    (dotE e t).1.cone = t.cone ∧ Wf d (dotE e t).1 ∧ Mid n l (dotE e t).1 ∧
    ((dotE e t).2 = false → Ready n l e (dotE e t).1) ∧
    ((dotE e t).2 = true → ¬ Resolves l e t.cone) := by
  unfold dotE
  by_cases hd : t.dbz = false
  · rw [if_pos hd]
    refine ⟨rfl, hw, h, fun _ => ⟨h, ?_, ?_⟩, by simp⟩
    · intro hv r hr h0
      exfalso
      have := h.dbz hv
      rw [hd] at this
      have h2 := (List.any_eq_false.1 this.symm) r hr
      simp [h0] at h2
    · intro ht; rw [hd] at ht; simp at ht
  · rw [if_neg hd]
    have hv : dot t.cone.vertex l ≠ 0 := fun h0 => hd (h.zero h0)
    obtain ⟨i1, i2, i3⟩ := epsLoop_spec e l t.cone.rays t.rdp (h.rdp hv)
    have hlen : (epsLoop e t.cone.rays t.rdp).1.length = d := by
      have := congrArg List.length i1
      simpa [constPow, hw.rays] using this
    simp only
    split_ifs with hb
    · refine ⟨rfl, ⟨hlen, hw.rays⟩, ⟨h.const, h.zero, h.det, h.dbz, fun _ => i1⟩, by simp, fun _ => ?_⟩
      obtain ⟨r, hr, h1, h2⟩ := i3 hb
      exact fun hR => hR hv r hr h1 h2
    · have hb' : (epsLoop e t.cone.rays t.rdp).2 = false := by simpa using hb
      obtain ⟨j1, j2⟩ := i2 hb'
      have hmid : Mid n l { t with rdp := (epsLoop e t.cone.rays t.rdp).1, num := { t.num with epsilon := dot e t.cone.vertex } } :=
        ⟨h.const, h.zero, h.det, h.dbz, fun _ => i1⟩
      refine ⟨rfl, ⟨hlen, hw.rays⟩, hmid, fun _ => ⟨hmid, fun _ => j2, fun _ => ⟨j1, rfl⟩⟩, by simp⟩

theorem tryCurrent_spec (n d : Nat) (l e : List Int) (ts : List LTerm) (hw : ∀ t ∈ ts, Wf d t) (h : ∀ t ∈ ts, Mid n l t) :
    (tryCurrent e ts).1.map (·.cone) = ts.map (·.cone) ∧ (∀ t ∈ (tryCurrent e ts).1, Wf d t) ∧ (∀ t ∈ (tryCurrent e ts).1, Mid n l t) ∧
    ((tryCurrent e ts).2 = false → ∀ t ∈ (tryCurrent e ts).1, Ready n l e t) ∧
    ((tryCurrent e ts).2 = true → ∃ t ∈ ts, ¬ Resolves l e t.cone) := by
  induction ts with
  | nil => simp [tryCurrent]
  | cons t ts ih =>
    obtain ⟨d1, d2, d3, d4, d5⟩ := dotE_spec n d l e t (hw t (by simp)) (h t (by simp))
    obtain ⟨i1, i2, i3, i4, i5⟩ := ih (fun t ht => hw t (by simp [ht])) (fun t ht => h t (by simp [ht]))
    rw [tryCurrent]
    simp only
    split_ifs with hb
    · refine ⟨by simp [d1], ?_, ?_, by simp, fun _ => ⟨t, by simp, d5 hb⟩⟩
      · intro t' ht'
        rcases List.mem_cons.1 ht' with rfl | ht'
        · exact d2
        · exact hw t' (by simp [ht'])
      · intro t' ht'
        rcases List.mem_cons.1 ht' with rfl | ht'
        · exact d3
        · exact h t' (by simp [ht'])
    · refine ⟨by simp [d1, i1], ?_, ?_, ?_, ?_⟩
      · intro t' ht'
        rcases List.mem_cons.1 ht' with rfl | ht'
        · exact d2
        · exact i2 t' ht'
      · intro t' ht'
        rcases List.mem_cons.1 ht' with rfl | ht'
        · exact d3
        · exact i3 t' ht'
      · intro hf t' ht'
        rcases List.mem_cons.1 ht' with rfl | ht'
        · exact d4 (by simpa using hb)
        · exact i4 hf t' ht'
      · intro ht
        obtain ⟨t', ht', h'⟩ := i5 ht
        exact ⟨t', by simp [ht'], h'⟩

theorem pertLoop_spec (n d : Nat) (l : List Int) (draws : List Nat) : ∀ ts : List LTerm, (∀ t ∈ ts, Wf d t) → (∀ t ∈ ts, Mid n l t) →
    ∀ ts' ds, pertLoop n draws ts = some (ts', ds) →
    ts'.map (·.cone) = ts.map (·.cone) ∧ (∀ t ∈ ts', Wf d t) ∧ ∃ r ∈ draws, ∀ t ∈ ts', Ready n l (pert n r) t := by
  induction draws with
  | nil => intro ts _ _ ts' ds h; simp [pertLoop] at h
  | cons r rs ih =>
    intro ts hw hm ts' ds h
    obtain ⟨c1, c2, c3, c4, _⟩ := tryCurrent_spec n d l (pert n r) ts hw hm
    rw [pertLoop] at h
    split_ifs at h with hb
    · obtain ⟨i1, i2, r', hr', i3⟩ := ih _ c2 c3 ts' ds h
      exact ⟨by rw [i1, c1], i2, r', by simp [hr'], i3⟩
    · simp only [Option.some.injEq, Prod.mk.injEq] at h
      obtain ⟨rfl, rfl⟩ := h
      exact ⟨c1, c2, r, by simp, c4 (by simpa using hb)⟩

/-- any draw that resolves all poles makes the loop stop -/
theorem pertLoop_progress (n d : Nat) (l : List Int) (draws : List Nat) : ∀ ts : List LTerm, (∀ t ∈ ts, Wf d t) → (∀ t ∈ ts, Mid n l t) →
    (∃ r ∈ draws, ∀ t ∈ ts, Resolves l (pert n r) t.cone) → pertLoop n draws ts ≠ none := by
  induction draws with
  | nil => intro ts _ _ h; simp at h
  | cons r rs ih =>
    intro ts hw hm h
    obtain ⟨c1, c2, c3, c4, c5⟩ := tryCurrent_spec n d l (pert n r) ts hw hm
    rw [pertLoop]
    split_ifs with hb
    · apply ih _ c2 c3
      obtain ⟨r', hr', hres⟩ := h
      have hcones : ∀ t ∈ (tryCurrent (pert n r) ts).1, ∃ t' ∈ ts, t'.cone = t.cone := by
        intro t ht
        have : t.cone ∈ ts.map (·.cone) := by rw [← c1]; exact List.mem_map_of_mem ht
        simpa using this
      rcases List.mem_cons.1 hr' with rfl | hr'
      · obtain ⟨t, ht, hn⟩ := c5 hb
        exact absurd (hres t ht) hn
      · refine ⟨r', hr', ?_⟩
        intro t ht
        obtain ⟨t', ht', e⟩ := hcones t ht
        rw [← e]; exact hres t' ht'
    · simp

/-- conversely, if no draw resolves all poles the search never succeeds -/
theorem pertLoop_stuck (n d : Nat) (l : List Int) (draws : List Nat) (ts : List LTerm) (hw : ∀ t ∈ ts, Wf d t) (hm : ∀ t ∈ ts, Mid n l t)
    (h : ∀ r ∈ draws, ∃ t ∈ ts, ¬ Resolves l (pert n r) t.cone) : pertLoop n draws ts = none := by
  cases hp : pertLoop n draws ts with
  | none => rfl
  | some q =>
    obtain ⟨ts', ds⟩ := q
    obtain ⟨c1, _, r, hr, h3⟩ := pertLoop_spec n d l draws ts hw hm ts' ds hp
    obtain ⟨t, ht, hn⟩ := h r hr
    have : t.cone ∈ ts'.map (·.cone) := by rw [c1]; exact List.mem_map_of_mem ht
    obtain ⟨t', ht', e⟩ := List.mem_map.1 this
    exact absurd (e ▸ (h3 t' ht').res) hn

theorem findPerturbation_spec (d : Nat) (l : List Int) (draws : List Nat) (ts : List LTerm) (hw : ∀ t ∈ ts, Wf d t)
    (ts' : List LTerm) (ds : List Nat) (h : findPerturbation l.length l draws ts = some (ts', ds)) :
    ts'.map (·.cone) = ts.map (·.cone) ∧ (∀ t ∈ ts', Wf d t) ∧ ∃ e : List Int, ∀ t ∈ ts', Ready l.length l e t := by
  have h1 : ∀ t ∈ (tryNo l ts).1, Wf d t := by
    intro t ht
    obtain ⟨t', ht', rfl⟩ := List.mem_map.1 ht
    exact (dotL_spec d l t' (hw t' ht')).1
  have h2 : ∀ t ∈ (tryNo l ts).1, Mid l.length l t := by
    intro t ht
    obtain ⟨t', ht', rfl⟩ := List.mem_map.1 ht
    exact (dotL_spec d l t' (hw t' ht')).2.1
  have h3 : (tryNo l ts).1.map (·.cone) = ts.map (·.cone) := by
    unfold tryNo
    simp only [List.map_map]
    apply List.map_congr_left
    intro t ht
    exact (dotL_spec d l t (hw t ht)).2.2
  unfold findPerturbation at h
  simp only at h
  split_ifs at h with hb
  · simp only [Option.some.injEq, Prod.mk.injEq] at h
    obtain ⟨rfl, rfl⟩ := h
    refine ⟨h3, h1, [], ?_⟩
    intro t ht
    have hdb : t.dbz = false := by
      unfold tryNo at hb
      simp only at hb
      have := (List.any_eq_false.1 hb) t ht
      simpa using this
    refine ⟨h2 t ht, ?_, ?_⟩
    · intro hv r hr h0
      exfalso
      have := (h2 t ht).dbz hv
      rw [hdb] at this
      have h2 := (List.any_eq_false.1 this.symm) r hr
      simp [h0] at h2
    · intro h; rw [hdb] at h; simp at h
  · obtain ⟨c1, c2, r, _, c3⟩ := pertLoop_spec l.length d l draws _ h1 h2 ts' ds h
    exact ⟨by rw [c1, h3], c2, _, c3⟩

/-! ### integration of one cone -/

theorem foldl_const (qs : List LP) : ∀ de : Int, qs.foldl (fun (de : Int) (q : LP) => de * q.constant) de = de * (qs.map (·.constant)).prod := by
  induction qs with
  | nil => intro de; simp
  | cons q qs ih => intro de; rw [List.foldl_cons, ih]; simp [mul_assoc]

theorem const_prod (rs : List (List Int)) (f g : List Int → ℚ) :
    constantCoeff ((rs.map fun r => lin (f r) (g r)).prod) = (rs.map f).prod := by
  induction rs with
  | nil => simp
  | cons r rs ih => rw [List.map_cons, List.prod_cons, map_mul, ih, lin_const]; simp

theorem coe_prod (rs : List (List Int)) (f : List Int → Int) :
    (((rs.map f).prod : Int) : ℚ) = (rs.map fun r => (f r : ℚ)).prod := by
  induction rs with
  | nil => simp
  | cons r rs ih => simp [ih]

theorem factor_ps (q : LP) (h : q.power = -1 ∨ (1 ≤ q.power ∧ q.constant ≠ 0)) : ((factor q : Polynomial ℚ) : ℚ⟦X⟧) = facPS q := by
  unfold factor facPS lin
  rcases h with h | ⟨h, hc⟩
  · rw [if_pos (by omega), if_pos (by omega)]; simp
  · rw [if_neg (by omega), if_neg (by omega), if_neg hc, if_neg (by omega), Polynomial.coe_pow, Polynomial.coe_add, Polynomial.coe_mul, Polynomial.coe_C,
      Polynomial.coe_C, Polynomial.coe_X]

theorem list_coe_prod (qs : List LP) : (((qs.map factor).prod : Polynomial ℚ) : ℚ⟦X⟧) = (qs.map fun q => ((factor q : Polynomial ℚ) : ℚ⟦X⟧)).prod := by
  induction qs with
  | nil => simp
  | cons q qs ih => simp [ih]

theorem facPS_const (q : LP) (h : q.power = -1 ∨ (1 ≤ q.power ∧ q.constant ≠ 0)) : constantCoeff (facPS q) ≠ 0 := by
  unfold facPS
  rcases h with h | ⟨h, hc⟩
  · rw [if_pos (by omega)]; simp
  · rw [if_neg (by omega), map_pow, lin_const]
    exact pow_ne_zero _ (by exact_mod_cast hc)

theorem integrateTerm_spec (n d m : Nat) (l e : List Int) (t : LTerm) (total : ℚ) (hw : Wf d t) (h : Ready n l e t) (hb : m + d < 2 ^ 20) :
    ∃ t', integrateTerm m d t total = some (t', total + coneVal n d m l e t.cone) ∧ t'.cone = t.cone ∧ Wf d t' := by
  unfold integrateTerm coneVal
  rw [h.const]
  by_cases hv : dot t.cone.vertex l = 0
  · rw [if_pos hv, if_pos hv]; exact ⟨t, by simp, rfl, hw⟩
  · rw [if_neg hv, if_neg hv]
    have hcp := h.rdp hv
    by_cases hd : t.dbz = false
    · rw [if_pos hd]
      have hnz : ∀ r ∈ t.cone.rays, dot l r ≠ 0 := by
        intro r hr h0
        have := h.dbz hv
        rw [hd] at this
        have h2 := (List.any_eq_false.1 this.symm) r hr
        simp [h0] at h2
      have hcm : t.rdp.map (·.constant) = t.cone.rays.map (dot l) := by
        have := congrArg (List.map Prod.fst) hcp
        simpa [constPow, Function.comp_def] using this
      rw [foldl_const, one_mul, hcm]
      have hprod : (t.cone.rays.map (dot l)).prod ≠ 0 := by
        apply List.prod_ne_zero
        intro h0
        obtain ⟨r, hr, e⟩ := List.mem_map.1 h0
        exact hnz r hr e
      unfold ratMul
      rw [if_neg hprod]
      refine ⟨t, ?_, rfl, hw⟩
      simp only [Option.map_some, Option.some.injEq, Prod.mk.injEq, true_and]
      congr 1
      rw [h.det hv]
      have hden : denPS l e t.cone = C 1 * X ^ 0 * denPS l e t.cone := by simp
      have hcc : constantCoeff (denPS l e t.cone) = ((t.cone.rays.map (dot l)).prod : Int) := by
        unfold denPS
        rw [const_prod t.cone.rays (fun r => (dot l r : ℚ)) (fun r => (dot e r : ℚ)), coe_prod]
      rw [hden, laurent0_eq _ _ _ _ one_ne_zero (by rw [hcc]; exact_mod_cast hprod), coeff_zero_eq_constantCoeff_apply, map_mul,
        PowerSeries.constantCoeff_inv, hcc, map_pow]
      unfold numPS
      rw [lin_const]
      push_cast
      rw [div_eq_mul_inv]
      ring
    · rw [if_neg hd]
      have hd' : t.dbz = true := by simpa using hd
      obtain ⟨hr1, hr2⟩ := h.eps hd'
      have hpow0 : ∀ q ∈ t.rdp, q.power = 0 := by
        intro q hq
        rw [hr1] at hq
        obtain ⟨r, _, rfl⟩ := List.mem_map.1 hq
        rfl
      have hz : ∃ q ∈ t.rdp, q.constant = 0 := by
        have := h.dbz hv
        rw [hd'] at this
        obtain ⟨r, hr, h0⟩ := List.any_eq_true.1 this.symm
        rw [hr1]
        exact ⟨_, List.mem_map_of_mem hr, by simpa using h0⟩
      obtain ⟨p0, rest, e1, e2, e3, e4, e5, e6, _, e8⟩ := c39_updatePowers t.rdp hpow0 hz
      rw [e1, Option.bind_some]
      -- the denominator as a power series
      have hden : denPS l e t.cone = C (p0.epsilon : ℚ) * X ^ p0.power.toNat * (rest.map facPS).prod := by
        have h3 := congrArg (fun P : Polynomial ℚ => (P : ℚ⟦X⟧)) e3
        have hl : (((t.rdp.map fun q => Polynomial.C (q.constant : ℚ) + Polynomial.C (q.epsilon : ℚ) * Polynomial.X).prod : Polynomial ℚ) : ℚ⟦X⟧)
            = denPS l e t.cone := by
          rw [hr1]
          unfold denPS lin
          generalize t.cone.rays = rs
          induction rs with
          | nil => simp
          | cons r rs ih =>
            simp only [List.map_map, Function.comp_def, List.map_cons, List.prod_cons, Polynomial.coe_mul] at ih ⊢
            rw [ih, Polynomial.coe_add, Polynomial.coe_mul, Polynomial.coe_C, Polynomial.coe_C, Polynomial.coe_X]
        rw [hl] at h3
        rw [← h3, list_coe_prod, List.map_cons, List.prod_cons]
        congr 1
        · unfold factor
          rw [if_neg (by omega), if_neg (by omega), if_pos e4, Polynomial.coe_mul, Polynomial.coe_pow, Polynomial.coe_C, Polynomial.coe_X]
        · congr 1
          apply List.map_congr_left
          intro q hq
          exact factor_ps q (e6 q hq)
      have hden0 : denPS l e t.cone ≠ 0 := by
        unfold denPS
        apply List.prod_ne_zero
        intro h0
        obtain ⟨r, hr, e⟩ := List.mem_map.1 h0
        have hc0 := congrArg constantCoeff e
        rw [lin_const, map_zero] at hc0
        have hc1 := congrArg (coeff 1) e
        rw [lin, map_add, coeff_C_mul, coeff_one_X, mul_one, coeff_C, if_neg one_ne_zero, zero_add, map_zero] at hc1
        have hc0' : dot l r = 0 := by exact_mod_cast hc0
        have := h.res hv r hr hc0'
        exact this (by exact_mod_cast hc1)
      have hpe : p0.epsilon ≠ 0 := by
        intro h0
        apply hden0
        rw [hden, h0]; simp
      have hU : constantCoeff ((rest.map facPS).prod) ≠ 0 := by
        rw [map_list_prod, List.map_map]
        apply List.prod_ne_zero
        intro h0
        obtain ⟨q, hq, e⟩ := List.mem_map.1 h0
        exact facPS_const q (e6 q hq) e
      obtain ⟨nu, de, f1, f2, f3⟩ := computeResidueLawrence_spec d m t.num p0 rest (by rw [e2, hw.rdp]) e5 hpe
        (fun q hq h1 => by rcases e6 q hq with h | h; · omega
                           · exact h.2) (by rw [e8, hw.rdp]) hb
      rw [f1, Option.bind_some]
      unfold ratMul
      simp only
      rw [if_neg f2]
      refine ⟨{ t with rdp := p0 :: rest }, ?_, rfl, ⟨by rw [e2, hw.rdp], hw.rays⟩⟩
      simp only [Option.map_some, Option.some.injEq, Prod.mk.injEq, true_and]
      congr 1
      rw [f3, hden, laurent0_eq _ _ _ _ (by exact_mod_cast hpe) hU, h.det hv, h.const, hr2]
      unfold numPS
      ring

theorem integrateLoop_spec (n d m : Nat) (l e : List Int) (hb : m + d < 2 ^ 20) (ts : List LTerm) : ∀ total : ℚ, (∀ t ∈ ts, Wf d t) →
    (∀ t ∈ ts, Ready n l e t) →
    ∃ ts', integrateLoop m d ts total = some (ts', total + ((ts.map (·.cone)).map (coneVal n d m l e)).sum) ∧
      ts'.map (·.cone) = ts.map (·.cone) ∧ ∀ t ∈ ts', Wf d t := by
  induction ts with
  | nil => intro total _ _; exact ⟨[], by simp [integrateLoop], rfl, by simp⟩
  | cons t ts ih =>
    intro total hw h
    obtain ⟨t', e1, e2, e3⟩ := integrateTerm_spec n d m l e t total (hw t (by simp)) (h t (by simp)) hb
    obtain ⟨ts', f1, f2, f3⟩ := ih (total + coneVal n d m l e t.cone) (fun t ht => hw t (by simp [ht])) (fun t ht => h t (by simp [ht]))
    refine ⟨t' :: ts', ?_, by simp [e2, f2], ?_⟩
    · rw [integrateLoop, e1, Option.bind_some]
      simp only
      rw [f1]
      simp [add_assoc]
    · intro t'' ht
      rcases List.mem_cons.1 ht with rfl | ht
      · exact e3
      · exact f3 t'' ht

end Latte.Lawrence
