import Verif.Knapsack.Gcd
import Mathlib.Data.List.Sublists
import Mathlib.Data.List.Sort

/-! C30: the enumeration by index sets. -/

namespace Latte.Knapsack

/-- number of index sets still to come -/
def rk (n : Nat) : Nat → List Nat → Nat
  | _, [] => 0
  | i, x :: xs => (n - x).choose (i + 1) + rk n (i + 1) xs

/-- valid state of the array from position `i` on -/
def Vd (n : Nat) : Nat → List Nat → Prop
  | _, [] => True
  | i, x :: xs => 1 ≤ x ∧ x ≤ n - i ∧ (∀ y ∈ xs, y < x) ∧ Vd n (i + 1) xs

theorem stepSub_spec (n : Nat) : ∀ (s : List Nat) (i : Nat), Vd n i s →
    (stepSub (n - i) s = none ∧ rk n i s = 0) ∨
    ∃ y ys, stepSub (n - i) s = some (y :: ys) ∧ Vd n i (y :: ys) ∧ (y :: ys).length = s.length ∧
      rk n i (y :: ys) + (n - y).choose i = rk n i s := by
  intro s
  induction s with
  | nil => intro i _; exact Or.inl ⟨rfl, rfl⟩
  | cons x xs ih =>
    intro i ⟨h1, h2, h3, h4⟩
    unfold stepSub
    by_cases hx : x + 1 > n - i
    · rw [if_pos hx]
      have hxe : n - x = i := by omega
      have e : n - i - 1 = n - (i + 1) := by omega
      rw [e]
      rcases ih (i + 1) h4 with ⟨e1, e2⟩ | ⟨y, ys, e1, hv, hl, hr⟩
      · left
        rw [e1]
        simp [rk, e2, hxe]
      · right
        rw [e1]
        obtain ⟨v1, v2, v3, v4⟩ := hv
        refine ⟨y + 1, y :: ys, rfl, ⟨by omega, by omega, ?_, v1, v2, v3, v4⟩, ?_, ?_⟩
        · intro z hz
          rcases List.mem_cons.1 hz with rfl | hz
          · omega
          · have := v3 z hz; omega
        · simp only [List.length_cons] at hl ⊢; omega
        · have e3 : n - y = (n - (y + 1)) + 1 := by omega
          rw [e3, Nat.choose_succ_succ'] at hr
          have : rk n i (x :: xs) = rk n (i + 1) xs := by
            simp [rk, hxe]
          rw [this, ← hr]
          simp only [rk]
          omega
    · rw [if_neg hx]
      right
      refine ⟨x + 1, xs, rfl, ⟨by omega, by omega, fun y hy => ?_, h4⟩, rfl, ?_⟩
      · have := h3 y hy; omega
      · simp only [rk]
        have e3 : n - x = (n - (x + 1)) + 1 := by omega
        rw [e3, Nat.choose_succ_succ']
        omega

/-- `[m, m-1, ..., 1]` -/
def desc : Nat → List Nat
  | 0 => []
  | m + 1 => (m + 1) :: desc m

theorem desc_eq (k : Nat) : ((List.range k).map fun i => k - i) = desc k := by
  induction k with
  | zero => rfl
  | succ k ih =>
    rw [List.range_succ_eq_map]
    simp only [List.map_cons, List.map_map, desc, ← ih]
    congr 1
    apply List.map_congr_left
    intro i _
    simp only [Function.comp]; omega

theorem desc_mem {m x : Nat} : x ∈ desc m ↔ 1 ≤ x ∧ x ≤ m := by
  induction m with
  | zero => simp [desc]; omega
  | succ m ih => simp only [desc, List.mem_cons, ih]; omega

theorem desc_length (m : Nat) : (desc m).length = m := by
  induction m with
  | zero => rfl
  | succ m ih => simp [desc, ih]

theorem desc_pairwise (m : Nat) : (desc m).Pairwise (· > ·) := by
  induction m with
  | zero => exact List.Pairwise.nil
  | succ m ih =>
    refine List.pairwise_cons.2 ⟨fun y hy => ?_, ih⟩
    have := (desc_mem.1 hy).2; omega

theorem desc_rk (n m : Nat) : ∀ i, i + m ≤ n → rk n i (desc m) + (n - m).choose i = n.choose (i + m) ∧ Vd n i (desc m) := by
  induction m with
  | zero => intro i _; simp [desc, rk, Vd]
  | succ m ih =>
    intro i hi
    obtain ⟨h1, h2⟩ := ih (i + 1) (by omega)
    refine ⟨?_, by omega, by omega, fun y hy => ?_, h2⟩
    · have e : n - m = (n - (m + 1)) + 1 := by omega
      rw [e, Nat.choose_succ_succ'] at h1
      simp only [desc, rk]
      have e2 : i + (m + 1) = i + 1 + m := by omega
      rw [e2, ← h1]
      omega
    · have := (desc_mem.1 hy).2; omega

theorem Vd_sublist {n : Nat} : ∀ {s : List Nat} {i : Nat}, Vd n i s → s.Pairwise (· > ·) ∧ ∀ x ∈ s, 1 ≤ x ∧ x ≤ n := by
  intro s
  induction s with
  | nil => intro i _; simp
  | cons x xs ih =>
    intro i ⟨h1, h2, h3, h4⟩
    obtain ⟨p, q⟩ := ih h4
    refine ⟨List.pairwise_cons.2 ⟨h3, p⟩, ?_⟩
    intro y hy
    rcases List.mem_cons.1 hy with rfl | hy
    · omega
    · exact q y hy

theorem sublist_desc {n : Nat} {s : List Nat} (hp : s.Pairwise (· > ·)) (hm : ∀ x ∈ s, 1 ≤ x ∧ x ≤ n) :
    s.Sublist (desc n) := by
  apply List.sublist_of_subperm_of_pairwise _ hp (desc_pairwise n)
  apply List.subperm_of_subset (hp.imp (fun h => ne_of_gt h))
  intro x hx
  exact desc_mem.2 (hm x hx)

theorem gcd_foldl (alpha : List Int) (xs : List Nat) : ∀ (g0 : Int), 0 ≤ g0 → (∀ x ∈ xs, 1 ≤ x ∧ x ≤ alpha.length) →
    ∃ h, xs.foldl (fun g y => g.bind fun g => if y = 0 then none else alpha[y - 1]?.map fun a => (Int.gcd g a : Int)) (some g0)
      = some h ∧ 0 ≤ h ∧ ∀ d, d ∣ h ↔ d ∣ g0 ∧ ∀ y ∈ xs, d ∣ alpha.getD (y - 1) 0 := by
  induction xs with
  | nil => intro g0 h0 _; exact ⟨g0, rfl, h0, by simp⟩
  | cons x xs ih =>
    intro g0 h0 hm
    have hx := hm x (by simp)
    have hlt : x - 1 < alpha.length := by omega
    obtain ⟨h, e, h1, h2⟩ := ih (Int.gcd g0 alpha[x - 1] : Int) (by positivity) (fun y hy => hm y (by simp [hy]))
    refine ⟨h, ?_, h1, fun d => ?_⟩
    · rw [List.foldl_cons, ← e]
      have hx0 : x ≠ 0 := by omega
      simp [hx0, List.getElem?_eq_getElem hlt]
    · rw [h2]
      have : alpha.getD (x - 1) 0 = alpha[x - 1] := by simp [List.getD, List.getElem?_eq_getElem hlt]
      simp only [List.forall_mem_cons, this, Int.dvd_coe_gcd_iff, and_assoc]

theorem subGcd_eq (alpha : List Int) (hpos : ∀ a ∈ alpha, 0 < a) (s : List Nat) (hne : s ≠ [])
    (hm : ∀ x ∈ s, 1 ≤ x ∧ x ≤ alpha.length) : subGcd alpha s = some (listGcd (s.map fun x => alpha.getD (x - 1) 0)) := by
  cases s with
  | nil => exact absurd rfl hne
  | cons x xs =>
    have hx := hm x (by simp)
    have hlt : x - 1 < alpha.length := by omega
    unfold subGcd
    simp only [if_neg (show ¬ x = 0 by omega), List.getElem?_eq_getElem hlt]
    obtain ⟨h, e, h1, h2⟩ := gcd_foldl alpha xs alpha[x - 1] (hpos _ (List.getElem_mem hlt)).le (fun y hy => hm y (by simp [hy]))
    rw [e]
    congr 1
    symm
    have hgd : alpha.getD (x - 1) 0 = alpha[x - 1] := by simp [List.getD, List.getElem?_eq_getElem hlt]
    have key := h2
    apply listGcd_unique h1
    · have := (h2 h).1 dvd_rfl
      intro y hy
      obtain ⟨z, hz, rfl⟩ := List.mem_map.1 hy
      rcases List.mem_cons.1 hz with rfl | hz
      · rw [hgd]; exact this.1
      · exact this.2 z hz
    · intro d hd
      rw [h2]
      refine ⟨?_, fun y hy => hd _ (List.mem_map.2 ⟨y, by simp [hy], rfl⟩)⟩
      rw [← hgd]
      exact hd _ (List.mem_map.2 ⟨x, by simp, rfl⟩)

/-- the states visited -/
theorem subLoop_spec (alpha : List Int) (hpos : ∀ a ∈ alpha, 0 < a) (k : Nat) (hk : 0 < k) : ∀ (c : Nat) (s : List Nat) (gcds : List MPair),
    Vd alpha.length 0 s → s.length = k → rk alpha.length 0 s = c → (gcds.map MPair.gcd).Nodup →
    ∃ (V : List (List Nat)) (res : List MPair), subLoop alpha c s gcds = some res ∧ V.length = c + 1 ∧ V.Nodup ∧
      (∀ t ∈ V, Vd alpha.length 0 t ∧ t.length = k ∧ rk alpha.length 0 t ≤ c) ∧ (res.map MPair.gcd).Nodup ∧
      ∀ x, x ∈ res.map MPair.gcd ↔ (∃ t ∈ V, listGcd (t.map fun x => alpha.getD (x - 1) 0) = x) ∨ x ∈ gcds.map MPair.gcd := by
  intro c
  induction c with
  | zero =>
    intro s gcds hv hl hr hnd
    have hg := subGcd_eq alpha hpos s (by rintro rfl; simp at hl; omega) (Vd_sublist hv).2
    obtain ⟨h1, h2⟩ := c29_insertGCD gcds (listGcd (s.map fun x => alpha.getD (x - 1) 0)) hnd
    refine ⟨[s], _, ?_, rfl, by simp, ?_, h1, ?_⟩
    · unfold subLoop; rw [hg]
    · intro t ht
      have : t = s := by simpa using ht
      subst this
      exact ⟨hv, hl, hr.le⟩
    · intro x; rw [h2]; simp [eq_comm]
  | succ c ih =>
    intro s gcds hv hl hr hnd
    have hg := subGcd_eq alpha hpos s (by rintro rfl; simp at hl; omega) (Vd_sublist hv).2
    obtain ⟨h1, h2⟩ := c29_insertGCD gcds (listGcd (s.map fun x => alpha.getD (x - 1) 0)) hnd
    rcases stepSub_spec alpha.length s 0 hv with ⟨_, e0⟩ | ⟨y, ys, e1, hv', hl', hr'⟩
    · omega
    · rw [Nat.choose_zero_right] at hr'
      obtain ⟨V, res, a1, a2, a3, a4, a5, a6⟩ := ih (y :: ys) _ hv' (by rw [hl', hl]) (by omega) h1
      refine ⟨s :: V, res, ?_, by simp [a2], List.nodup_cons.2 ⟨fun hm => ?_, a3⟩, ?_, a5, ?_⟩
      · unfold subLoop
        rw [hg]
        simp only
        rw [Nat.sub_zero] at e1
        rw [e1]
        exact a1
      · have := (a4 s hm).2.2; omega
      · intro t ht
        rcases List.mem_cons.1 ht with rfl | ht
        · exact ⟨hv, hl, hr.le⟩
        · obtain ⟨b1, b2, b3⟩ := a4 t ht; exact ⟨b1, b2, by omega⟩
      · intro x
        rw [a6, h2]
        rw [List.exists_mem_cons_iff]
        constructor
        · rintro (h | h | h)
          · exact Or.inl (Or.inr h)
          · exact Or.inl (Or.inl h.symm)
          · exact Or.inr h
        · rintro ((h | h) | h)
          · exact Or.inr (Or.inl h.symm)
          · exact Or.inl h
          · exact Or.inr (Or.inr h)

theorem reverse_eq_map_desc (alpha : List Int) : alpha.reverse = (desc alpha.length).map fun x => alpha.getD (x - 1) 0 := by
  rw [← desc_eq]
  apply List.ext_getElem
  · simp
  · intro i h1 h2
    simp only [List.length_reverse] at h1
    simp [List.getD, List.getElem_reverse]
    rw [List.getElem?_eq_getElem (by omega), Option.getD_some]
    congr 1
    omega

theorem listGcd_reverse (S : List Int) : listGcd S.reverse = listGcd S :=
  listGcd_unique (listGcd_nonneg S) (fun x hx => listGcd_dvd (by simpa using hx))
    fun d hd => dvd_listGcd fun x hx => hd x (by simpa using hx)

/-- C30, subset method, one size `1 ≤ k ≤ N+1`: exactly the gcds of the sublists of that size are added (for the whole
list under the documented assumption that its gcd is one). -/
theorem c30_subsets_size (alpha : List Int) (hpos : ∀ a ∈ alpha, 0 < a) (h1 : listGcd alpha = 1) (k : Nat) (hk : 0 < k)
    (hkn : k ≤ alpha.length) (gcds : List MPair) (hnd : (gcds.map MPair.gcd).Nodup) :
    ∃ res, everyGCDFromSubsets alpha k gcds = some res ∧ (res.map MPair.gcd).Nodup ∧
      ∀ x, x ∈ res.map MPair.gcd ↔ (∃ S : List Int, S.Sublist alpha ∧ S.length = k ∧ listGcd S = x) ∨ x ∈ gcds.map MPair.gcd := by
  unfold everyGCDFromSubsets
  by_cases hke : k = alpha.length
  · rw [if_pos hke]
    obtain ⟨h2, h3⟩ := c29_insertGCD gcds 1 hnd
    refine ⟨_, rfl, h2, fun x => ?_⟩
    rw [h3]
    constructor
    · rintro (rfl | h)
      · exact Or.inl ⟨alpha, List.Sublist.refl _, hke.symm, h1⟩
      · exact Or.inr h
    · rintro (⟨S, a1, a2, a3⟩ | h)
      · left
        have := a1.eq_of_length (by omega)
        rw [← a3, this, h1]
      · exact Or.inr h
  · rw [if_neg hke, c31_binomial_exact alpha.length k hkn 1]
    simp only
    have hcp := Nat.choose_pos hkn
    rw [if_neg (by omega)]
    obtain ⟨r1, r2⟩ := desc_rk alpha.length k 0 (by omega)
    rw [Nat.choose_zero_right, Nat.zero_add] at r1
    rw [desc_eq]
    have hrk : rk alpha.length 0 (desc k) = ((alpha.length.choose k : Int)).toNat - 1 := by
      rw [Int.toNat_natCast]; omega
    obtain ⟨V, res, a1, a2, a3, a4, a5, a6⟩ := subLoop_spec alpha hpos k hk _ (desc k) gcds r2 (desc_length k) hrk hnd
    refine ⟨res, a1, a5, fun x => ?_⟩
    rw [a6]
    rw [Int.toNat_natCast] at a2
    -- all the index sets of size k are visited
    have hsub : V ⊆ List.sublistsLen k (desc alpha.length) := by
      intro t ht
      obtain ⟨b1, b2, _⟩ := a4 t ht
      obtain ⟨c1, c2⟩ := Vd_sublist b1
      exact List.mem_sublistsLen.2 ⟨sublist_desc c1 c2, b2⟩
    have hall : ∀ t, t ∈ V ↔ t.Sublist (desc alpha.length) ∧ t.length = k := by
      have hp := (List.subperm_of_subset a3 hsub).perm_of_length_le (by
        rw [List.length_sublistsLen, desc_length]; omega)
      intro t
      rw [hp.mem_iff, List.mem_sublistsLen]
    have : (∃ t ∈ V, listGcd (t.map fun x => alpha.getD (x - 1) 0) = x) ↔
        ∃ S : List Int, S.Sublist alpha ∧ S.length = k ∧ listGcd S = x := by
      constructor
      · rintro ⟨t, ht, e⟩
        obtain ⟨s1, s2⟩ := (hall t).1 ht
        refine ⟨(t.map fun x => alpha.getD (x - 1) 0).reverse, ?_, by simp [s2], by rw [listGcd_reverse, e]⟩
        rw [← List.reverse_sublist, List.reverse_reverse, reverse_eq_map_desc alpha]
        exact s1.map _
      · rintro ⟨S, s1, s2, s3⟩
        have h := s1.reverse
        rw [reverse_eq_map_desc alpha, List.sublist_map_iff] at h
        obtain ⟨t, t1, t2⟩ := h
        refine ⟨t, (hall t).2 ⟨t1, ?_⟩, ?_⟩
        · have := congrArg List.length t2
          simp at this; omega
        · rw [← t2, listGcd_reverse, s3]
    rw [this]

theorem subsetsLoop_spec (alpha : List Int) (hpos : ∀ a ∈ alpha, 0 < a) (h1 : listGcd alpha = 1) :
    ∀ (c i : Nat) (gcds : List MPair), i + c ≤ alpha.length → (gcds.map MPair.gcd).Nodup →
    ∃ res, subsetsLoop alpha c i gcds = some res ∧ (res.map MPair.gcd).Nodup ∧
      ∀ x, x ∈ res.map MPair.gcd ↔ (∃ S : List Int, S.Sublist alpha ∧ (∃ j, i ≤ j ∧ j < i + c ∧ S.length = alpha.length - j) ∧ listGcd S = x)
        ∨ x ∈ gcds.map MPair.gcd := by
  intro c
  induction c with
  | zero =>
    intro i gcds _ hnd
    refine ⟨gcds, rfl, hnd, fun x => ⟨Or.inr, ?_⟩⟩
    rintro (⟨S, _, ⟨j, h1, h2, _⟩, _⟩ | h)
    · omega
    · exact h
  | succ c ih =>
    intro i gcds hi hnd
    obtain ⟨r1, e1, n1, m1⟩ := c30_subsets_size alpha hpos h1 (alpha.length - i) (by omega) (by omega) gcds hnd
    obtain ⟨r2, e2, n2, m2⟩ := ih (i + 1) r1 (by omega) n1
    refine ⟨r2, ?_, n2, fun x => ?_⟩
    · unfold subsetsLoop; rw [e1]; exact e2
    · rw [m2, m1]
      constructor
      · rintro (⟨S, a, ⟨j, b1, b2, b3⟩, b4⟩ | ⟨S, a, b, b4⟩ | h)
        · exact Or.inl ⟨S, a, ⟨j, by omega, by omega, b3⟩, b4⟩
        · exact Or.inl ⟨S, a, ⟨i, le_rfl, by omega, b⟩, b4⟩
        · exact Or.inr h
      · rintro (⟨S, a, ⟨j, b1, b2, b3⟩, b4⟩ | h)
        · rcases Nat.eq_or_lt_of_le b1 with rfl | hj
          · exact Or.inr (Or.inl ⟨S, a, b3, b4⟩)
          · exact Or.inl ⟨S, a, ⟨j, hj, by omega, b3⟩, b4⟩
        · exact Or.inr (Or.inr h)

/-- C30: for every list of positive integers whose gcd is one, every `k ≤ N` and either method, `findGCDs` on an empty
list ends and produces exactly the gcds of the sublists with at least `N+1-k` elements, each once; the two methods thus
agree, and the list meets the requirements of the weight computation (C29). -/
theorem c30_findGCDs (alpha : List Int) (hpos : ∀ a ∈ alpha, 0 < a) (h1 : listGcd alpha = 1) (k : Nat)
    (hk : k < alpha.length) (bySubsets : Bool) :
    ∃ F res, (∀ fuel ≥ F, findGCDs bySubsets fuel alpha k [] = some res) ∧ (res.map MPair.gcd).Nodup ∧
      (∀ x, x ∈ res.map MPair.gcd ↔ Wanted alpha k x) ∧
      (∀ p ∈ res, 0 < p.gcd) ∧ 1 ∈ res.map MPair.gcd ∧ GcdClosed res := by
  cases bySubsets with
  | false =>
    obtain ⟨F, res, e, n, m⟩ := c30_entire_list alpha hpos k hk [] (by simp)
    have m' : ∀ x, x ∈ res.map MPair.gcd ↔ Wanted alpha k x := fun x => by rw [m]; simp
    exact ⟨F, res, fun f hf => by simp [findGCDs, e f hf], n, m', wanted_closed hpos hk res m' h1⟩
  | true =>
    obtain ⟨res, e, n, m⟩ := subsetsLoop_spec alpha hpos h1 (k + 1) 0 [] (by omega) (by simp)
    have m' : ∀ x, x ∈ res.map MPair.gcd ↔ Wanted alpha k x := fun x => by
      rw [m]
      simp only [List.map_nil, List.not_mem_nil, or_false]
      constructor
      · rintro ⟨S, a, ⟨j, _, b2, b3⟩, b4⟩
        exact ⟨S, a, by omega, b4⟩
      · rintro ⟨S, a, b, b4⟩
        have := a.length_le
        exact ⟨S, a, ⟨alpha.length - S.length, Nat.zero_le _, by omega, by omega⟩, b4⟩
    exact ⟨0, res, fun f _ => by simp [findGCDs, e], n, m', wanted_closed hpos hk res m' h1⟩

/-- non-vacuity -/
example : (∀ a ∈ ([6, 10, 15] : List Int), 0 < a) ∧ listGcd [6, 10, 15] = 1 ∧
    (findGCDs true 0 [6, 10, 15] 1 []).map (·.map MPair.gcd) = some [1, 2, 3, 5] ∧
    (findGCDs false 20 [6, 10, 15] 1 []).map (·.map MPair.gcd) = some [1, 2, 3, 5] := by
  decide +kernel

end Latte.Knapsack
