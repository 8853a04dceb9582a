import Verif.TopK.One
import Verif.Knapsack.Subsets
import Verif.Knapsack.Bernoulli
import Verif.Knapsack.Mobius

/-!
# `top-ehrhart-knapsack` computes coefficients of the Ehrhart quasi-polynomial (C81)
-/

namespace Verif.TopK

open PowerSeries
open Latte.Knapsack (MPair)

variable {bern : List ℚ} {k : ℕ}

/-- All series together, as sums over roots of unity. -/
theorem expandAll_spec (hb : BernOk bern k) (env : Env) (hN : ∀ n, (env.ntl n).Ok) (topK : Bool) (alpha : List ℤ) (hα : ∀ a ∈ alpha, 0 < a)
    (hg : ∀ d : ℤ, (∀ a ∈ alpha, d ∣ a) → IsUnit d) : ∀ (ps : List MPair) (i : ℕ) (r : List (ℤ × ℤ × GMS)), (∀ p ∈ ps, 0 < p.gcd) →
    expandAll env bern k topK alpha i ps = .ok r →
    (∀ s ∈ r, ∀ u ∈ s.2.2, (if topK then 0 else k) ≤ u.x ∧ u.x ≤ k) ∧
    ∀ t, ∀ j ≤ k, (if topK then 0 else k) ≤ j →
      (((r.map fun s : ℤ × ℤ × GMS => ((s.2.1 : ℤ) : ℚ) * (s.1 : ℚ) * xcoef s.2.2 t j).sum : ℚ) : ℂ) =
        (ps.map fun p : MPair => (p.mu : ℂ) * coeff j (classL (alpha.map Int.toNat) p.gcd.toNat t)).sum := by
  intro ps
  induction ps with
  | nil =>
    intro i r _ h
    cases h
    simp
  | cons p ps ih =>
    intro i r hp h
    have hp' : ∀ q ∈ ps, 0 < q.gcd := fun q hq => hp q (List.mem_cons_of_mem _ hq)
    rw [expandAll] at h
    split at h
    · split at h
      · cases h
      rename_i g hgo
      split at h
      · cases h
      rename_i r' hr'
      cases h
      obtain ⟨a1, a2⟩ := ih _ _ hp' hr'
      have h0 := hp p (List.mem_cons_self ..)
      have hcast : ((p.gcd.toNat : ℕ) : ℤ) = p.gcd := Int.toNat_of_nonneg h0.le
      obtain ⟨b1, b2⟩ := expandOne_spec hb env hN topK alpha hα hg i p.gcd.toNat (by omega) g (by rw [hcast]; exact hgo)
      refine ⟨fun s hs => ?_, fun t j hj hj0 => ?_⟩
      · rcases List.mem_cons.1 hs with rfl | hs
        · exact b1
        · exact a1 s hs
      · rw [List.map_cons, List.sum_cons, List.map_cons, List.sum_cons, ← a2 t j hj hj0, ← b2 t j hj hj0, Rat.cast_add]
        congr 1
        have : ((p.gcd.toNat : ℕ) : ℚ) = (p.gcd : ℚ) := by
          exact_mod_cast congrArg (Int.cast : ℤ → ℚ) hcast
        rw [this]
        push_cast
        ring
    · rename_i hmu
      have hmu : p.mu = 0 := not_not.1 hmu
      obtain ⟨a1, a2⟩ := ih _ _ hp' h
      refine ⟨a1, fun t j hj hj0 => ?_⟩
      rw [a2 t j hj hj0, List.map_cons, List.sum_cons, hmu, Int.cast_zero, zero_mul, zero_add]

/-! ## `packageAnswer` -/

theorem foldTerms (N : ℕ) (gcd mu : ℤ) (j : ℕ) : ∀ (g : GMS) (cs : List PF),
    (g.foldl (fun (cs : List PF) (r : Term) => cs.modify r.x fun q => fun t => q t + r.coef t * factor N r.x gcd mu) cs).length = cs.length ∧
    ∀ q, cs[j]? = some q → ∃ q', (g.foldl (fun (cs : List PF) (r : Term) => cs.modify r.x fun q => fun t => q t + r.coef t * factor N r.x gcd mu) cs)[j]? = some q' ∧
      ∀ t, q' t = q t + xcoef g t j * factor N j gcd mu := by
  intro g
  induction g with
  | nil => exact fun cs => ⟨rfl, fun q hq => ⟨q, hq, fun t => by simp [xcoef]⟩⟩
  | cons r g ih =>
    intro cs
    rw [List.foldl_cons]
    obtain ⟨a1, a2⟩ := ih (cs.modify r.x fun q => fun t => q t + r.coef t * factor N r.x gcd mu)
    refine ⟨by rw [a1, List.length_modify], fun q hq => ?_⟩
    by_cases hr : r.x = j
    · obtain ⟨q', b1, b2⟩ := a2 (fun t => q t + r.coef t * factor N r.x gcd mu) (by rw [List.getElem?_modify, hq]; simp [hr])
      refine ⟨q', b1, fun t => ?_⟩
      rw [b2]
      have : xcoef (r :: g) t j = r.coef t + xcoef g t j := by simp [xcoef, hr]
      rw [this, hr]; ring
    · obtain ⟨q', b1, b2⟩ := a2 q (by rw [List.getElem?_modify, hq]; simp [hr])
      refine ⟨q', b1, fun t => ?_⟩
      rw [b2]
      have : xcoef (r :: g) t j = xcoef g t j := by simp [xcoef, hr]
      rw [this]

theorem packageAnswer_spec (N : ℕ) (j : ℕ) : ∀ (series : List (ℤ × ℤ × GMS)) (cs : List PF),
    (packageAnswer N series cs).length = cs.length ∧
    ∀ q, cs[j]? = some q → ∃ q', (packageAnswer N series cs)[j]? = some q' ∧
      ∀ t, q' t = q t + (series.map fun s : ℤ × ℤ × GMS => xcoef s.2.2 t j * factor N j s.1 s.2.1).sum := by
  intro series
  unfold packageAnswer
  induction series with
  | nil => exact fun cs => ⟨rfl, fun q hq => ⟨q, hq, fun t => by simp⟩⟩
  | cons s series ih =>
    intro cs
    rw [List.foldl_cons]
    obtain ⟨a1, a2⟩ := foldTerms N s.1 s.2.1 j s.2.2 cs
    obtain ⟨b1, b2⟩ := ih (s.2.2.foldl (fun (cs : List PF) (r : Term) => cs.modify r.x fun q => fun t => q t + r.coef t * factor N r.x s.1 s.2.1) cs)
    refine ⟨by rw [b1, a1], fun q hq => ?_⟩
    obtain ⟨q1, c1, c2⟩ := a2 q hq
    obtain ⟨q2, d1, d2⟩ := b2 q1 c1
    refine ⟨q2, d1, fun t => ?_⟩
    rw [d2, c2, List.map_cons, List.sum_cons]
    ring

theorem factLoop_fact (c : ℕ) : ∀ j : ℕ, factLoop c ((j : ℤ) + 1) (j.factorial : ℤ) = ((j + c).factorial : ℤ) := by
  induction c with
  | zero => exact fun j => rfl
  | succ c ih =>
    intro j
    rw [factLoop]
    have := ih (j + 1)
    rw [show ((j : ℤ) + 1 + 1) = ((j + 1 : ℕ) : ℤ) + 1 by push_cast; ring, show ((j.factorial : ℤ) * ((j : ℤ) + 1)) = ((j + 1).factorial : ℤ) by
      rw [Nat.factorial_succ]; push_cast; ring, this, show j + 1 + c = j + (c + 1) by ring]

theorem factor_eq (N deg : ℕ) (gcd mu : ℤ) : factor N deg gcd mu = -((-1) ^ (N - deg) / ((N - deg).factorial : ℚ)) * (mu * gcd) := by
  unfold factor
  simp only
  have h1 : factLoop (N - deg - 1) 2 1 = ((N - deg).factorial : ℤ) := by
    have := factLoop_fact (N - deg - 1) 1
    norm_num at this
    rw [this]
    rcases Nat.eq_zero_or_pos (N - deg) with h | h
    · rw [h]; rfl
    · congr 2; omega
  rw [h1]
  rcases Nat.even_or_odd (N - deg) with h | h
  · rw [if_pos (Nat.even_iff.1 h), h.neg_one_pow]; push_cast; ring
  · rw [if_neg (by rw [Nat.odd_iff.1 h]; decide), h.neg_one_pow]; push_cast; ring

theorem packed (N : ℕ) (j : ℕ) (series : List (ℤ × ℤ × GMS)) (t : ℤ) :
    (series.map fun s : ℤ × ℤ × GMS => xcoef s.2.2 t j * factor N j s.1 s.2.1).sum =
      -((-1) ^ (N - j) / ((N - j).factorial : ℚ)) * (series.map fun s : ℤ × ℤ × GMS => ((s.2.1 : ℤ) : ℚ) * (s.1 : ℚ) * xcoef s.2.2 t j).sum := by
  rw [← List.sum_map_mul_left]
  congr 1
  refine List.map_congr_left fun s _ => ?_
  rw [factor_eq]; ring

theorem bernOk (n k : ℕ) (hk : k ≤ n) : BernOk ((Latte.Knapsack.setBernoulli n).getD []) k := by
  intro j hj
  rw [Latte.Knapsack.c28_bernoulli_table]
  simp [List.getD, show j < n + 1 by omega]

/-! ## The fuel of the gcd lists -/

theorem jLoop_mono (a : ℤ) : ∀ (f f' : ℕ), f ≤ f' → ∀ (j : ℕ) (out r : List ℤ), Latte.Knapsack.jLoop a f j out = some r →
    Latte.Knapsack.jLoop a f' j out = some r := by
  intro f
  induction f with
  | zero => intro f' _ j out r h; simp [Latte.Knapsack.jLoop] at h
  | succ f ih =>
    intro f' hf j out r h
    obtain ⟨f', rfl⟩ : ∃ g, f' = g + 1 := ⟨f' - 1, by omega⟩
    rw [Latte.Knapsack.jLoop] at h ⊢
    split at h
    · exact h
    · exact ih f' (by omega) _ _ _ h

theorem iLoop_mono (f f' : ℕ) (hf : f ≤ f') : ∀ (as out r : List ℤ), Latte.Knapsack.iLoop f as out = some r → Latte.Knapsack.iLoop f' as out = some r := by
  intro as
  induction as with
  | nil => exact fun out r h => h
  | cons a as ih =>
    intro out r h
    rw [Latte.Knapsack.iLoop] at h ⊢
    split at h
    · cases h
    rename_i out' ho
    rw [jLoop_mono a f f' hf _ _ _ ho]
    exact ih _ _ h

theorem findGCDs_mono (b : Bool) (f f' : ℕ) (hf : f ≤ f') (alpha : List ℤ) (k : ℕ) (g r : List MPair) (h : Latte.Knapsack.findGCDs b f alpha k g = some r) :
    Latte.Knapsack.findGCDs b f' alpha k g = some r := by
  unfold Latte.Knapsack.findGCDs at h ⊢
  cases b with
  | true => exact h
  | false =>
    simp only [Bool.false_eq_true, if_false] at h ⊢
    unfold Latte.Knapsack.everyGCDFromEntireList at h ⊢
    obtain ⟨out, h1, h2⟩ := Option.map_eq_some_iff.1 h
    rw [iLoop_mono f f' hf _ _ _ h1]
    exact congrArg some h2

theorem mobLoop_mono (rec rec' : List MPair → ℕ → Option (List MPair)) (hr : ∀ l i r, rec l i = some r → rec' l i = some r) : ∀ (c : ℕ) (l : List MPair) (i : ℕ)
    (g : ℤ) (j : ℕ) (sum : ℤ) (r : List MPair × ℤ), Latte.Knapsack.mobLoop rec l i g c j sum = some r → Latte.Knapsack.mobLoop rec' l i g c j sum = some r := by
  intro c
  induction c with
  | zero => exact fun l i g j sum r h => h
  | succ c ih =>
    intro l i g j sum r h
    rw [Latte.Knapsack.mobLoop] at h ⊢
    split at h
    · cases h
    rename_i q hq
    split at h
    · rename_i hc
      rw [if_pos hc]
      split at h
      · rename_i hv
        rw [if_pos hv]
        exact ih _ _ _ _ _ _ h
      · rename_i hv
        rw [if_neg hv]
        split at h
        · cases h
        rename_i l' hl'
        rw [hr _ _ _ hl']
        exact ih _ _ _ _ _ _ h
    · rename_i hc
      rw [if_neg hc]
      exact ih _ _ _ _ _ _ h

theorem mobRec_mono : ∀ (f f' : ℕ), f ≤ f' → ∀ (l : List MPair) (i : ℕ) (r : List MPair), Latte.Knapsack.mobRec f l i = some r →
    Latte.Knapsack.mobRec f' l i = some r := by
  intro f
  induction f with
  | zero => intro f' _ l i r h; simp [Latte.Knapsack.mobRec] at h
  | succ f ih =>
    intro f' hf l i r h
    obtain ⟨f', rfl⟩ : ∃ g, f' = g + 1 := ⟨f' - 1, by omega⟩
    rw [Latte.Knapsack.mobRec] at h ⊢
    split at h
    · cases h
    rename_i p hp
    split at h
    · rename_i hv
      rw [if_pos hv]
      exact h
    · rename_i hv
      rw [if_neg hv]
      split at h
      · cases h
      rename_i l' sum hl
      rw [mobLoop_mono _ _ (fun l i r => ih f' (by omega) l i r) _ _ _ _ _ _ _ hl]
      exact h

theorem computeMobius_mono (f f' : ℕ) (hf : f ≤ f') (l : List MPair) (r : Option (List MPair)) (h : Latte.Knapsack.computeMobius f l = some r) :
    Latte.Knapsack.computeMobius f' l = some r := by
  unfold Latte.Knapsack.computeMobius at h ⊢
  simp only at h ⊢
  split at h
  · exact h
  · obtain ⟨l', h1, h2⟩ := Option.map_eq_some_iff.1 h
    rw [mobRec_mono f f' hf _ _ _ h1]
    exact congrArg some h2

/-- The weights found by a fresh object. -/
theorem weights_spec (b : Bool) (fuel : ℕ) (alpha : List ℤ) (hpos : ∀ a ∈ alpha, 0 < a) (h1 : Latte.Knapsack.listGcd alpha = 1) (k : ℕ) (hk : k < alpha.length)
    (g l : List MPair) (hg : Latte.Knapsack.findGCDs b fuel alpha k [] = some g) (hl : Latte.Knapsack.computeMobius fuel g = some (some l)) :
    (∀ p ∈ l, 0 < p.gcd ∧ ∃ a ∈ alpha, p.gcd ∣ a) ∧
    ∀ r : ℤ, alpha.length - k ≤ alpha.countP (fun a => r ∣ a) → Latte.Knapsack.weightOf l r = 1 := by
  obtain ⟨F, res, e1, nd, hw, hp, h1r, hcl⟩ := Latte.Knapsack.c30_findGCDs alpha hpos h1 k hk b
  have hres : res = g := by
    have a := e1 (max F fuel) (le_max_left ..)
    have b := findGCDs_mono b fuel (max F fuel) (le_max_right ..) _ _ _ _ hg
    rw [a] at b
    exact Option.some.inj b
  subst hres
  obtain ⟨l', m1, m2, m3, m4⟩ := Latte.Knapsack.c29_mobius_weights res hp nd h1r hcl
  have hll : l' = l := by
    have a := m1 (max (res.length + 1) fuel) (by omega)
    have b := computeMobius_mono fuel (max (res.length + 1) fuel) (le_max_right ..) _ _ hl
    rw [a] at b
    exact Option.some.inj (Option.some.inj b)
  subst hll
  refine ⟨fun p hpl => ?_, fun r hr => ?_⟩
  · have hm : p.gcd ∈ res.map MPair.gcd := by rw [← m2]; exact List.mem_map_of_mem hpl
    refine ⟨?_, ?_⟩
    · obtain ⟨q, hq, he⟩ := List.mem_map.1 hm
      rw [← he]; exact hp q hq
    · obtain ⟨S, s1, s2, s3⟩ := (hw _).1 hm
      have : S ≠ [] := by rintro rfl; simp at s2; omega
      obtain ⟨a, ha⟩ := List.exists_mem_of_ne_nil S this
      exact ⟨a, s1.subset ha, s3 ▸ Latte.Knapsack.listGcd_dvd ha⟩
  · rw [m4, if_pos]
    have hW : Latte.Knapsack.Wanted alpha k (Latte.Knapsack.listGcd (alpha.filter fun a => r ∣ a)) :=
      ⟨_, List.filter_sublist, by rw [← List.countP_eq_length_filter]; exact hr, rfl⟩
    obtain ⟨q, hq, he⟩ := List.mem_map.1 ((hw _).2 hW)
    refine ⟨q, hq, he ▸ Latte.Knapsack.dvd_listGcd fun a ha => ?_⟩
    simpa using (List.mem_filter.1 ha).2

/-! ## The theorems -/

variable {n : ℕ}

theorem IsQuasi.toComplex {d : ℕ} {e : ℕ → ℕ → ℚ} {g : ℕ → ℕ} (h : IsQuasi d e fun t => (g t : ℚ)) :
    IsQuasi d (fun j t => ((e j t : ℚ) : ℂ)) fun t => (g t : ℂ) where
  periodic := by
    obtain ⟨q, hq, hp⟩ := h.periodic
    exact ⟨q, hq, fun j t => by rw [hp]⟩
  value t := by
    have := congrArg (fun x : ℚ => (x : ℂ)) (h.value t)
    push_cast at this
    exact this

/-- **The number of solutions is a quasi-polynomial** with rational coefficients. -/
theorem c81_quasi_polynomial (α : Fin (n + 1) → ℕ) (hα : ∀ i, 0 < α i) : ∃ e : ℕ → ℕ → ℚ, IsQuasi n e fun t => (ways α t : ℚ) := by
  have hL : 0 < ∏ i, α i := Finset.prod_pos fun i _ => hα i
  have hd : ∀ i, α i ∣ ∏ i, α i := fun i => Finset.dvd_prod_of_mem α (Finset.mem_univ i)
  have hq := ways_quasi α hα (∏ i, α i) hL hd
  set L := ∏ i, α i
  have hc : ∀ h t : ℕ, resCoeff n h (classSeries α L (t : ℤ)) =
      ((resCoeff n h (C (L : ℚ) * boxSeries (fun i => (α i : ℤ)) L (t : ℤ)) : ℚ) : ℂ) := by
    intro h t
    unfold resCoeff
    rw [classSeries_box α hα L hL, coeff_C_mul, coeff_C_mul, coeff_toC]
    push_cast
    rfl
  refine ⟨fun h t => resCoeff n h (C (L : ℚ) * boxSeries (fun i => (α i : ℤ)) L (t : ℤ)), ?_, fun t => ?_⟩
  · obtain ⟨q, hq0, hp⟩ := hq.periodic
    refine ⟨q, hq0, fun j t => ?_⟩
    have := hp j t
    rw [hc, hc] at this
    exact_mod_cast this
  · have := hq.value t
    simp only [hc] at this
    exact_mod_cast this

/-- A new object for the weights `α`. -/
def fresh (α : Fin (n + 1) → ℕ) (bySubsets : Bool) : Obj := (Obj.new.set (List.ofFn fun i => (α i : ℤ))).useSubsetsForGCD bySubsets

theorem coeff_spec (α : Fin (n + 1) → ℕ) (hα : ∀ i, 0 < α i) (hg : ∀ d, (∀ i, d ∣ α i) → d = 1) (b : Bool) (env : Env) (hN : ∀ n, (env.ntl n).Ok)
    (topK : Bool) (k : ℤ) (o : Obj) (h : (fresh α b).coeff env topK k = .ok o) (e : ℕ → ℕ → ℚ) (he : IsQuasi n e fun t => (ways α t : ℚ)) :
    0 ≤ k ∧ k ≤ n ∧ o.coeffs.length = k.toNat + 1 ∧
    ∀ i ≤ k.toNat, (if topK then 0 else k.toNat) ≤ i → ∃ q, o.coeffs[i]? = some q ∧ ∀ t : ℕ, q t = e (n - i) t := by
  unfold Obj.coeff at h
  have hal : (fresh α b).alpha = List.ofFn fun i => (α i : ℤ) := rfl
  have hlen : (fresh α b).alpha.length = n + 1 := by rw [hal, List.length_ofFn]
  have hpos : ∀ a ∈ (fresh α b).alpha, 0 < a := by
    intro a ha
    rw [hal] at ha
    obtain ⟨i, rfl⟩ := List.mem_ofFn.1 ha
    exact_mod_cast hα i
  have hunit : ∀ d : ℤ, (∀ a ∈ (fresh α b).alpha, d ∣ a) → IsUnit d := by
    intro d hd
    have := hg d.natAbs fun i => Int.natAbs_dvd.2 (hd _ (by rw [hal]; exact List.mem_ofFn.2 ⟨i, rfl⟩)) |> Int.natCast_dvd_natCast.1
    exact Int.isUnit_iff_natAbs_eq.2 this
  split at h
  swap
  · cases h
  rename_i hk
  rw [hlen] at hk
  simp only at h
  split at h
  · cases h
  rename_i gcds hgcds
  split at h
  · cases h
  · cases h
  rename_i l hl
  split at h
  · cases h
  rename_i series hs
  cases h
  have hkn : k.toNat < n + 1 := by omega
  have hW := weights_spec b env.fuel _ hpos (by
    have h0 := Latte.Knapsack.listGcd_nonneg (fresh α b).alpha
    have h1 := hunit _ fun a ha => Latte.Knapsack.listGcd_dvd ha
    rcases Int.isUnit_iff.1 h1 with h1 | h1
    · exact h1
    · omega) k.toNat (by omega) gcds l hgcds hl
  obtain ⟨hl1, hl2⟩ := hW
  have hbern : BernOk (fresh α b).bern k.toNat := by
    have := bernOk (fresh α b).alpha.length k.toNat (by omega)
    exact this
  obtain ⟨s1, s2⟩ := expandAll_spec hbern env hN topK (fresh α b).alpha hpos hunit l 0 series (fun p hp => (hl1 p hp).1) hs
  have hc0 : resize (fresh α b).coeffs k.toNat = List.replicate (k.toNat + 1) fun _ => 0 := by
    simp [resize, fresh, Obj.new, Obj.set, Obj.useSubsetsForGCD]
  refine ⟨hk.1, by omega, ?_, fun i hi hi0 => ?_⟩
  · show (packageAnswer _ _ _).length = _
    rw [(packageAnswer_spec _ 0 _ _).1, hc0, List.length_replicate]
  obtain ⟨q, q1, q2⟩ := (packageAnswer_spec ((fresh α b).alpha.length - 1) i series (resize (fresh α b).coeffs k.toNat)).2 (fun _ => 0) (by
    rw [hc0, List.getElem?_replicate, if_pos (by omega)])
  refine ⟨q, q1, fun t => ?_⟩
  rw [q2, packed, zero_add, hlen, Nat.add_sub_cancel]
  have hL : 0 < ∏ i, α i := Finset.prod_pos fun i _ => hα i
  have hd : ∀ i, α i ∣ ∏ i, α i := fun i => Finset.dvd_prod_of_mem α (Finset.mem_univ i)
  have hu := he.toComplex.unique (ways_quasi α hα (∏ i, α i) hL hd) (n - i) (by omega) t
  set L := ∏ i, α i
  have hw := weighted α k.toNat (by omega) L hL (l.map fun p : MPair => (p.gcd.toNat, p.mu)) (by
    intro p hp
    obtain ⟨q, hq, rfl⟩ := List.mem_map.1 hp
    obtain ⟨h0, a, ha, hda⟩ := hl1 q hq
    refine ⟨by simp only; omega, ?_⟩
    rw [hal] at ha
    obtain ⟨i, rfl⟩ := List.mem_ofFn.1 ha
    refine dvd_trans ?_ (hd i)
    rw [← Int.natCast_dvd_natCast, Int.toNat_of_nonneg h0.le]
    exact hda) (by
    intro r hr
    have h1 := hl2 r (by
      rw [hlen, hal]
      refine hr.trans_eq ?_
      rw [List.ofFn_eq_map, List.countP_map]
      have : (List.finRange (n + 1)).countP (fun i => decide (r ∣ α i)) = (Finset.univ.filter fun i => r ∣ α i).card := by
        rw [List.countP_eq_length_filter]
        rw [Finset.card_def, Finset.filter_val, ← Multiset.coe_card]
        rfl
      rw [← this]
      congr 1
      funext i
      simp [Int.natCast_dvd_natCast])
    rw [← h1]
    unfold Latte.Knapsack.weightOf
    rw [List.filter_map, List.map_map]
    have : (l.filter ((fun p : ℕ × ℤ => decide (r ∣ p.1)) ∘ fun p : MPair => (p.gcd.toNat, p.mu))) = l.filter fun p => decide ((r : ℤ) ∣ p.gcd) :=
      List.filter_congr fun p hp => by
        have h0 := (hl1 p hp).1
        have : r ∣ p.gcd.toNat ↔ (r : ℤ) ∣ p.gcd := by rw [← Int.natCast_dvd_natCast, Int.toNat_of_nonneg h0.le]
        simp [this]
    rw [this]
    rfl) (t : ℤ) i hi
  have hfin : (((-((-1) ^ (n - i) / ((n - i).factorial : ℚ)) * (series.map fun s : ℤ × ℤ × GMS => ((s.2.1 : ℤ) : ℚ) * (s.1 : ℚ) * xcoef s.2.2 t i).sum : ℚ)) : ℂ) =
      ((e (n - i) t : ℚ) : ℂ) := by
    rw [Rat.cast_mul, s2 t i hi hi0, hu]
    unfold resCoeff
    rw [show n - (n - i) = i by omega, hw, List.map_map]
    have : ∀ p : MPair, ((fun p : ℕ × ℤ => (p.2 : ℂ) * coeff i (classSeries α p.1 (t : ℤ))) ∘ fun p : MPair => (p.gcd.toNat, p.mu)) p =
        (p.mu : ℂ) * coeff i (classL ((fresh α b).alpha.map Int.toNat) p.gcd.toNat t) := by
      intro p
      rw [hal, List.map_ofFn]
      simp only [Function.comp_def, Int.toNat_natCast]
      rw [classL_ofFn]
    rw [List.map_congr_left fun p _ => this p]
    push_cast
    ring
  exact_mod_cast hfin

/-- **C81.** `coeff_topK(k)` on a new object for positive weights `α₀, …, αₙ` of gcd 1: if it returns, entries `0, …, k` of its answer are the coefficients of
`tⁿ, …, t^{n-k}` of the quasi-polynomial that counts the solutions of `∑ αᵢ xᵢ = t`, `xᵢ ≥ 0`. -/
theorem c81_topK (α : Fin (n + 1) → ℕ) (hα : ∀ i, 0 < α i) (hg : ∀ d, (∀ i, d ∣ α i) → d = 1) (bySubsets : Bool) (env : Env) (hN : ∀ n, (env.ntl n).Ok)
    (k : ℤ) (o : Obj) (h : (fresh α bySubsets).coeffTopK env k = .ok o) (e : ℕ → ℕ → ℚ) (he : IsQuasi n e fun t => (ways α t : ℚ)) :
    0 ≤ k ∧ k ≤ n ∧ ∀ i : ℕ, (i : ℤ) ≤ k → ∃ q, o.getCoeffNminusK i = some q ∧ ∀ t : ℕ, q t = e (n - i) t := by
  obtain ⟨a1, a2, _, a3⟩ := coeff_spec α hα hg bySubsets env hN true k o h e he
  exact ⟨a1, a2, fun i hi => a3 i (by omega) (by simp)⟩

/-- **C81.** `coeff_NminusK(k)`, likewise: entry `k` is the coefficient of `t^{n-k}`. -/
theorem c81_NminusK (α : Fin (n + 1) → ℕ) (hα : ∀ i, 0 < α i) (hg : ∀ d, (∀ i, d ∣ α i) → d = 1) (bySubsets : Bool) (env : Env) (hN : ∀ n, (env.ntl n).Ok)
    (k : ℕ) (o : Obj) (h : (fresh α bySubsets).coeffNminusK env k = .ok o) (e : ℕ → ℕ → ℚ) (he : IsQuasi n e fun t => (ways α t : ℚ)) :
    k ≤ n ∧ ∃ q, o.getCoeffNminusK k = some q ∧ ∀ t : ℕ, q t = e (n - k) t := by
  obtain ⟨a1, a2, _, a3⟩ := coeff_spec α hα hg bySubsets env hN false k o h e he
  exact ⟨by exact_mod_cast a2, a3 k (by simp) (by simp)⟩

end Verif.TopK
