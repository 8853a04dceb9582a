import Verif.TopK.Props
import Verif.Brion.Total
import Verif.Barvinok.Exists

/-!
# How a call of `coeff_topK` or `coeff_NminusK` can end (C81)
-/

namespace Verif.TopK

open Latte.Knapsack (MPair)
open Verif.Barvinok (Mat Vec Ntl Cone)

variable {n m : ℕ} {bern : List ℚ} {k : ℕ}

theorem findResidue_some (topK : Bool) (len : ℕ) (a : Fin (m + 1) → ℤ) (fDiv : List ℤ) (B : Mat (m + 1)) (s beta : Fin (m + 1) → ℤ) (L : List (Cone (m + 1)))
    (h : ∀ Cn ∈ L, ∀ i, ¬ (pair a B (Cn.rays i) = 0 ∧ pair beta B (Cn.rays i) = 0)) : ∃ g, findResidue bern k topK len a fDiv B s beta L = some g := by
  induction L with
  | nil => exact ⟨_, rfl⟩
  | cons Cn L ih =>
    obtain ⟨g2, h2⟩ := ih fun D hD => h D (List.mem_cons_of_mem _ hD)
    have h1 : ∃ g1, coneTerms bern k topK len a fDiv B s beta Cn = some g1 := by
      unfold coneTerms
      simp only
      rw [if_neg]
      · exact ⟨_, rfl⟩
      · rw [List.any_eq_true]
        rintro ⟨p, hp, hz⟩
        obtain ⟨i, _, rfl⟩ := List.mem_map.1 hp
        exact h Cn (List.mem_cons_self ..) i (by simpa using hz)
    obtain ⟨g1, h1⟩ := h1
    rw [findResidue, h1, h2]
    exact ⟨_, rfl⟩

theorem residueLoop_ends (topK : Bool) (len : ℕ) (a : Fin (m + 1) → ℤ) (fDiv : List ℤ) (B : Mat (m + 1)) (s : Fin (m + 1) → ℤ) (L : List (Cone (m + 1)))
    (rnd : ℕ → ℕ → ℤ) (c : ℕ) : ∀ att0 att : ℕ, att0 ≤ att → att < att0 + c →
    (∀ Cn ∈ L, ∀ i, ¬ (pair a B (Cn.rays i) = 0 ∧ pair (fun i => rnd att i) B (Cn.rays i) = 0)) →
    ∃ g, residueLoop bern k topK len a fDiv B s L rnd c att0 = .ok g := by
  induction c with
  | zero => intro att0 att h1 h2; omega
  | succ c ih =>
    intro att0 att h1 h2 h
    rw [residueLoop]
    split
    · exact ⟨_, rfl⟩
    rename_i hn
    rcases Nat.lt_or_ge att0 att with h3 | h3
    · exact ih (att0 + 1) att (by omega) (by omega) h
    · have : att = att0 := by omega
      subst this
      obtain ⟨g, hg⟩ := findResidue_some (bern := bern) (k := k) topK len a fDiv B s (fun i => rnd att i) L h
      rw [hg] at hn
      cases hn

/-- The elements of `alpha` that `f` does not divide. -/
def rest (alpha : List ℤ) (f : ℤ) : List ℤ := alpha.filter fun a => ¬ f ∣ a

/-- **Specification: the random numbers suffice for `f`.** Let `a` be the elements of `alpha` not divisible by `f`, `B` the basis found for the lattice
`{w : f ∣ ∑ aᵢ wᵢ}`. Some random vector is not orthogonal to any edge `B g` of the cones of the decomposition with `⟨a, B g⟩ = 0`. -/
def Generic (ntl : ∀ n, Ntl n) (rnd : ℕ → ℕ → ℕ → ℤ) (alpha : List ℤ) (i : ℕ) (f : ℤ) : Prop :=
  ∀ (m : ℕ), (rest alpha f).length = m + 1 → ∀ (fuel : ℕ) (B : Mat (m + 1)), findLatticeBasis fuel (fun i : Fin (m + 1) => (rest alpha f).getD i 0) f = some B →
    ∀ L, findUnimodularCones (ntl (m + 1)) (scaledInv B) = .ok L →
      ∃ att, ∀ C ∈ L, ∀ j, ∑ i : Fin (m + 1), (rest alpha f).getD i 0 * B.mulVec (C.rays j) i = 0 →
        ∑ k : Fin (m + 1), rnd i att k * B.mulVec (C.rays j) k ≠ 0

/-- The cones are decomposed if the search for short vectors succeeds. -/
theorem findUnimodularCones_ends (ntl : Ntl (m + 1)) (hs : ExpSubst.ShortVectors ntl) (B : Mat (m + 1)) (hB : B.det ≠ 0) :
    ∃ L, findUnimodularCones ntl (scaledInv B) = .ok L := by
  have hdet := columnCone_det B hB
  obtain ⟨F, d, hc, hpos, hdual, -, -⟩ := Barvinok.computeDetAndFacets_some (columnCone (scaledInv B)) rfl hdet
  have hF : F.det ≠ 0 := Barvinok.det_transpose_mul_ne _ F d hpos hdual
  have hz : Barvinok.dualizeCone (columnCone (scaledInv B)) = some (Barvinok.swapDual { columnCone (scaledInv B) with
        determinant := (columnCone (scaledInv B)).rays.det, facets := some F, facetDivisors := d,
        dualDeterminant := F.det } F) := by
    unfold Barvinok.dualizeCone
    have : (columnCone (scaledInv B)).facets = none := rfl
    rw [this]
    simp only [hc]
  obtain ⟨D, hD⟩ := ExpSubst.delivered_dual ntl hs (fun _ => 0) 1 le_rfl [((0 : Fin (m + 1) → ℚ), [F])] (by
    intro c hc B hB
    simp only [List.mem_singleton] at hc
    subst hc
    simp only [List.mem_singleton] at hB
    subst hB
    exact hF)
  unfold findUnimodularCones
  rw [hz]
  simp only
  change ∃ L, (match PolySubst.decomposeCones ntl .dual (fun _ => 0) 1 [((0 : Fin (m + 1) → ℚ), [F])] with
    | .error _ => Except.error Fail.abort
    | .ok cones => .ok cones) = .ok L
  unfold ExpSubst.delivered at hD
  split at hD
  swap
  · cases hD
  rename_i out md hrun
  have : PolySubst.decomposeCones ntl .dual (fun _ => 0) 1 [((0 : Fin (m + 1) → ℚ), [F])] = .ok out.reverse := by
    unfold PolySubst.decomposeCones
    rw [hrun]
  rw [this]
  exact ⟨_, rfl⟩

theorem expandOne_ends (alpha : List ℤ) (hα : ∀ a ∈ alpha, 0 < a) (hg : ∀ d : ℤ, (∀ a ∈ alpha, d ∣ a) → IsUnit d) (topK : Bool) (i : ℕ) (f : ℤ) (hf : 0 < f) (ntl : ∀ n, Ntl n) (hs : ∀ n, ExpSubst.ShortVectors (ntl (n + 1))) (rnd : ℕ → ℕ → ℕ → ℤ)
    (hw : f ≠ 1 → Generic ntl rnd alpha i f) : ∃ F, ∀ fuel ≥ F, ∃ g, expandOne ⟨ntl, fuel, rnd⟩ bern k topK alpha i f = .ok g := by
  by_cases h1 : f = 1
  · exact ⟨0, fun fuel _ => by rw [expandOne, if_pos h1]; exact ⟨_, rfl⟩⟩
  obtain ⟨m, hm⟩ : ∃ m, (rest alpha f).length = m + 1 := by
    refine ⟨(rest alpha f).length - 1, ?_⟩
    have : (rest alpha f) ≠ [] := by
      intro h0
      refine h1 ?_
      have := hg f fun a ha => by
        by_contra hd
        have : a ∈ rest alpha f := List.mem_filter.2 ⟨ha, by simpa using hd⟩
        rw [h0] at this
        simp at this
      rcases Int.isUnit_iff.1 this with h | h <;> omega
    have := List.length_pos_iff.2 this
    omega
  have hmem : ∀ i : Fin (m + 1), (rest alpha f).getD i 0 ∈ rest alpha f := fun i => by
    rw [List.getD_eq_getElem _ _ (by rw [hm]; exact i.2)]
    exact List.getElem_mem _
  have hpos : ∀ i : Fin (m + 1), 0 < (rest alpha f).getD i 0 := fun i => hα _ (List.mem_filter.1 (hmem i)).1
  obtain ⟨N1, s1, e1⟩ := Preprocess.ihermite_ends (fun (i : Fin (m + 1)) (_ : Fin 1) => (rest alpha f).getD i 0) fun _ => 0
  obtain ⟨N2, s2, e2⟩ := Preprocess.ihermite_ends (fun (i : Fin (m + 1 + 1)) (_ : Fin 1) =>
    Fin.snoc (α := fun _ => ℤ) (fun i : Fin (m + 1) => (rest alpha f).getD i 0) f i) fun _ => 0
  have hB : ∃ B, ∀ fuel ≥ N1, findLatticeBasis fuel (fun i : Fin (m + 1) => (rest alpha f).getD i 0) f = some B := by
    refine ⟨fun i j => if j = 0 then s1.U j i * (f / (Int.gcd f (s1.S 0 0) : ℤ)) else s1.U j i, fun fuel hfu => ?_⟩
    unfold findLatticeBasis
    rw [e1 _ hfu]
    rfl
  have hV : ∃ s, ∀ fuel ≥ N2, findVertex fuel (fun i : Fin (m + 1) => (rest alpha f).getD i 0) f = some s := by
    refine ⟨fun i => s2.U 0 i.castSucc, fun fuel hfu => ?_⟩
    unfold findVertex
    rw [e2 _ hfu]
    rfl
  obtain ⟨B, hB⟩ := hB
  obtain ⟨s, hV⟩ := hV
  obtain ⟨b1, b2⟩ := findLatticeBasis_spec _ _ ⟨0, (hpos 0).ne'⟩ f hf B (hB N1 le_rfl)
  obtain ⟨L, hL⟩ := findUnimodularCones_ends (ntl (m + 1)) (hs m) B b1
  obtain ⟨att, hgood⟩ := hw h1 m hm N1 B (hB N1 le_rfl) L hL
  refine ⟨max (max N1 N2) (att + 1), fun fuel hfu => ?_⟩
  rw [expandOne, if_neg h1]
  simp only
  split
  · rename_i h0
    change (rest alpha f).length = 0 at h0
    omega
  rename_i m' hm'
  change (rest alpha f).length = m' + 1 at hm'
  obtain rfl : m = m' := by omega
  change ∃ g, expandClass (ntl (m + 1)) fuel (rnd i) bern k topK alpha.length (fun i : Fin (m + 1) => (rest alpha f).getD i 0) _ f = .ok g
  unfold expandClass
  rw [hB fuel (by omega), hV fuel (by omega)]
  simp only [hL]
  refine residueLoop_ends topK _ _ _ B s L _ _ 0 att (Nat.zero_le _) (by omega) fun C hC j hz => ?_
  exact hgood C hC j hz.1 hz.2

theorem expandAll_ends (alpha : List ℤ) (hα : ∀ a ∈ alpha, 0 < a) (hg : ∀ d : ℤ, (∀ a ∈ alpha, d ∣ a) → IsUnit d) (topK : Bool) (ntl : ∀ n, Ntl n)
    (hs : ∀ n, ExpSubst.ShortVectors (ntl (n + 1))) (rnd : ℕ → ℕ → ℕ → ℤ) : ∀ (ps : List MPair) (i : ℕ), (∀ p ∈ ps, 0 < p.gcd) →
    (∀ i f, f ∈ ps.map MPair.gcd → f ≠ 1 → Generic ntl rnd alpha i f) →
    ∃ F, ∀ fuel ≥ F, ∃ r, expandAll ⟨ntl, fuel, rnd⟩ bern k topK alpha i ps = .ok r := by
  intro ps
  induction ps with
  | nil => exact fun i _ _ => ⟨0, fun _ _ => ⟨_, rfl⟩⟩
  | cons p ps ih =>
    intro i hp hw
    obtain ⟨F1, h1⟩ := expandOne_ends (bern := bern) (k := k) alpha hα hg topK i p.gcd (hp p (List.mem_cons_self ..)) ntl hs rnd fun hne => hw i _ (by simp) hne
    obtain ⟨F2, h2⟩ := ih (i + 1) (fun q hq => hp q (List.mem_cons_of_mem _ hq)) fun i f hf => hw i f (by rw [List.map_cons]; exact List.mem_cons_of_mem _ hf)
    refine ⟨max F1 F2, fun fuel he => ?_⟩
    obtain ⟨g, hg⟩ := h1 fuel (by omega)
    obtain ⟨r, hr⟩ := h2 fuel (by omega)
    rw [expandAll, hg, hr]
    split
    · exact ⟨_, rfl⟩
    · exact ⟨_, rfl⟩

theorem wanted_finset (α : Fin (n + 1) → ℕ) (k : ℕ) (f : ℤ) (h : Latte.Knapsack.Wanted (List.ofFn fun i => (α i : ℤ)) k f) :
    ∃ S : Finset (Fin (n + 1)), n + 1 - k ≤ S.card ∧ ((S.gcd α : ℕ) : ℤ) = f := by
  obtain ⟨l, h1, h2, h3⟩ := h
  rw [List.length_ofFn] at h2
  have hf0 : 0 ≤ f := h3 ▸ Latte.Knapsack.listGcd_nonneg l
  refine ⟨Finset.univ.filter fun i => f ∣ (α i : ℤ), ?_, ?_⟩
  · have a1 : l.countP (fun a => decide (f ∣ a)) = l.length := List.countP_eq_length.2 fun a ha => by simpa using h3 ▸ Latte.Knapsack.listGcd_dvd ha
    have a2 := h1.countP_le (p := fun a => decide (f ∣ a))
    rw [List.ofFn_eq_map, List.countP_map] at a2
    have a3 : (List.finRange (n + 1)).countP (fun i => decide (f ∣ (α i : ℤ))) = (Finset.univ.filter fun i => f ∣ (α i : ℤ)).card := by
      rw [List.countP_eq_length_filter]
      rw [Finset.card_def, Finset.filter_val, ← Multiset.coe_card]
      rfl
    rw [← a3]
    change _ ≤ (List.finRange (n + 1)).countP ((fun a => decide (f ∣ a)) ∘ fun i => (α i : ℤ))
    omega
  · refine Latte.Knapsack.eq_of_dvd_dvd (by positivity) hf0 ?_ ?_
    · rw [← h3]
      refine Latte.Knapsack.dvd_listGcd fun x hx => ?_
      obtain ⟨i, rfl⟩ := List.mem_ofFn.1 (h1.subset hx)
      refine Int.natCast_dvd_natCast.2 (Finset.gcd_dvd (Finset.mem_filter.2 ⟨Finset.mem_univ _, ?_⟩))
      exact h3 ▸ Latte.Knapsack.listGcd_dvd hx
    · obtain ⟨g, rfl⟩ := Int.eq_ofNat_of_zero_le hf0
      refine Int.natCast_dvd_natCast.2 (Finset.dvd_gcd fun i hi => ?_)
      exact Int.natCast_dvd_natCast.1 (Finset.mem_filter.1 hi).2

/-- **C81, the call returns** if the search for short vectors succeeds (C66) and the random numbers suffice for every gcd other than 1 of at
least `n + 1 - k` of the weights (`S`). -/
theorem c81_returns (α : Fin (n + 1) → ℕ) (hα : ∀ i, 0 < α i) (hg : ∀ d, (∀ i, d ∣ α i) → d = 1) (bySubsets topK : Bool) (k : ℕ) (hk : k ≤ n)
    (ntl : ∀ n, Ntl n) (hs : ∀ n, ExpSubst.ShortVectors (ntl (n + 1))) (rnd : ℕ → ℕ → ℕ → ℤ)
    (hW : ∀ S : Finset (Fin (n + 1)), n + 1 - k ≤ S.card → S.gcd α ≠ 1 → ∀ i, Generic ntl rnd (List.ofFn fun i => (α i : ℤ)) i (S.gcd α : ℕ)) :
    ∃ F, ∀ fuel ≥ F, ∃ o, (fresh α bySubsets).coeff ⟨ntl, fuel, rnd⟩ topK k = .ok o := by
  have hal : (fresh α bySubsets).alpha = List.ofFn fun i => (α i : ℤ) := rfl
  have hlen : (fresh α bySubsets).alpha.length = n + 1 := by rw [hal, List.length_ofFn]
  have hpos : ∀ a ∈ (fresh α bySubsets).alpha, 0 < a := by
    intro a ha
    rw [hal] at ha
    obtain ⟨i, rfl⟩ := List.mem_ofFn.1 ha
    exact_mod_cast hα i
  have hunit : ∀ d : ℤ, (∀ a ∈ (fresh α bySubsets).alpha, d ∣ a) → IsUnit d := by
    intro d hd
    have := hg d.natAbs fun i => Int.natAbs_dvd.2 (hd _ (by rw [hal]; exact List.mem_ofFn.2 ⟨i, rfl⟩)) |> Int.natCast_dvd_natCast.1
    exact Int.isUnit_iff_natAbs_eq.2 this
  have hg1 : Latte.Knapsack.listGcd (fresh α bySubsets).alpha = 1 := by
    have h0 := Latte.Knapsack.listGcd_nonneg (fresh α bySubsets).alpha
    have h1 := hunit _ fun a ha => Latte.Knapsack.listGcd_dvd ha
    rcases Int.isUnit_iff.1 h1 with h1 | h1
    · exact h1
    · omega
  obtain ⟨F1, res, e1, nd, hw, hp, h1r, hcl⟩ := Latte.Knapsack.c30_findGCDs (fresh α bySubsets).alpha hpos hg1 k (by omega) bySubsets
  obtain ⟨l, m1, m2, -, -⟩ := Latte.Knapsack.c29_mobius_weights res hp nd h1r hcl
  obtain ⟨F2, h2⟩ := expandAll_ends (bern := (fresh α bySubsets).bern) (k := k) (fresh α bySubsets).alpha hpos hunit topK ntl hs rnd l 0 (fun p hpl => by
    have : p.gcd ∈ res.map MPair.gcd := by rw [← m2]; exact List.mem_map_of_mem hpl
    obtain ⟨q, hq, he⟩ := List.mem_map.1 this
    rw [← he]; exact hp q hq) fun i f hf hne => by
    rw [m2] at hf
    obtain ⟨S, s1, s2⟩ := wanted_finset α k f ((hw f).1 hf)
    have := hW S s1 (fun h => hne (by rw [← s2, h]; rfl)) i
    rw [s2] at this
    exact this
  refine ⟨max F1 (max F2 (res.length + 1)), fun fuel he => ?_⟩
  obtain ⟨r, hr⟩ := h2 fuel (by omega)
  unfold Obj.coeff
  rw [if_pos ⟨by positivity, by rw [hlen]; omega⟩]
  simp only [Int.toNat_natCast]
  rw [show (fresh α bySubsets).bySubsets = bySubsets from rfl, show (fresh α bySubsets).gcds = [] from rfl, e1 _ (by omega)]
  simp only
  rw [m1 _ (by omega)]
  simp only
  rw [hr]
  exact ⟨_, rfl⟩

/-- In particular, the call returns whenever any `n + 1 - k` of the weights have gcd 1, for instance for `k = 0`, or pairwise coprime weights and `k < n`. -/
theorem c81_returns_coprime (α : Fin (n + 1) → ℕ) (hα : ∀ i, 0 < α i) (k : ℕ) (hk : k ≤ n)
    (hg : ∀ S : Finset (Fin (n + 1)), n + 1 - k ≤ S.card → S.gcd α = 1) (bySubsets topK : Bool)
    (ntl : ∀ n, Ntl n) (hs : ∀ n, ExpSubst.ShortVectors (ntl (n + 1))) (rnd : ℕ → ℕ → ℕ → ℤ) :
    ∃ F, ∀ fuel ≥ F, ∃ o, (fresh α bySubsets).coeff ⟨ntl, fuel, rnd⟩ topK k = .ok o :=
  c81_returns α hα (fun d hd => by
    have := hg Finset.univ (by simp)
    have h2 := Finset.dvd_gcd (s := Finset.univ) (f := α) (a := d) fun i _ => hd i
    rw [this] at h2
    exact Nat.dvd_one.1 h2) bySubsets topK k hk ntl hs rnd fun S hS hne => absurd (hg S hS) hne

/-! ## Suitable random numbers exist -/

/-- Powers of the number of the attempt leave any finite set of hyperplanes. -/
theorem moment_generic (L : List (Fin (m + 1) → ℤ)) (hL : ∀ v ∈ L, v ≠ 0) : ∃ att : ℕ, ∀ v ∈ L, ∑ k : Fin (m + 1), (att : ℤ) ^ (k : ℕ) * v k ≠ 0 := by
  let P : (Fin (m + 1) → ℤ) → Polynomial ℤ := fun v => ∑ k : Fin (m + 1), Polynomial.monomial (k : ℕ) (v k)
  have hP : ∀ v, v ≠ 0 → P v ≠ 0 := by
    intro v hv h0
    refine hv (funext fun j => ?_)
    have := congrArg (fun p => p.coeff (j : ℕ)) h0
    simp only [P, Polynomial.finsetSum_coeff, Polynomial.coeff_monomial, Polynomial.coeff_zero] at this
    rw [Finset.sum_eq_single j (fun b _ hb => if_neg fun h => hb (Fin.ext h)) (by simp), if_pos rfl] at this
    exact this
  have heval : ∀ v (x : ℤ), (P v).eval x = ∑ k : Fin (m + 1), x ^ (k : ℕ) * v k := by
    intro v x
    simp only [P, Polynomial.eval_finsetSum, Polynomial.eval_monomial, mul_comm]
  have hprod : (L.map P).prod ≠ 0 := by
    rw [Ne, List.prod_eq_zero_iff]
    intro h
    obtain ⟨v, hv, h0⟩ := List.mem_map.1 h
    exact hP v (hL v hv) h0
  obtain ⟨x, hx⟩ : ∃ x : ℕ, ((L.map P).prod).eval (x : ℤ) ≠ 0 := by
    by_contra hall
    push Not at hall
    refine hprod (Polynomial.eq_zero_of_infinite_isRoot _ ?_)
    refine Set.Infinite.mono (s := Set.range fun x : ℕ => (x : ℤ)) ?_ (Set.infinite_range_of_injective Nat.cast_injective)
    rintro _ ⟨x, rfl⟩
    exact hall x
  refine ⟨x, fun v hv h0 => hx ?_⟩
  rw [Polynomial.eval_list_prod, List.map_map, List.prod_eq_zero_iff]
  exact List.mem_map.2 ⟨v, hv, by rw [Function.comp_apply, heval, h0]⟩

theorem moment_suffices (ntl : ∀ n, Ntl n) (hN : ∀ n, (ntl n).Ok) (alpha : List ℤ) (hα : ∀ a ∈ alpha, 0 < a) (i : ℕ) (f : ℤ) (hf : 0 < f) :
    Generic ntl (fun _ a k => (a : ℤ) ^ k) alpha i f := by
  intro m hm fuel B hB L hL
  have hmem : ∀ i : Fin (m + 1), (rest alpha f).getD i 0 ∈ rest alpha f := fun i => by
    rw [List.getD_eq_getElem _ _ (by rw [hm]; exact i.2)]
    exact List.getElem_mem _
  have hpos : ∀ i : Fin (m + 1), 0 < (rest alpha f).getD i 0 := fun i => hα _ (List.mem_filter.1 (hmem i)).1
  obtain ⟨b1, -⟩ := findLatticeBasis_spec _ _ ⟨0, (hpos 0).ne'⟩ f hf B hB
  obtain ⟨u1, -⟩ := findUnimodularCones_spec (ntl (m + 1)) (hN _) B b1 L hL
  obtain ⟨att, hatt⟩ := moment_generic (L.flatMap fun C => (List.finRange (m + 1)).map fun j => B.mulVec (C.rays j)) (by
    intro v hv h0
    obtain ⟨C, hC, hv⟩ := List.mem_flatMap.1 hv
    obtain ⟨j, _, rfl⟩ := List.mem_map.1 hv
    have h1 := Matrix.eq_zero_of_mulVec_eq_zero b1 h0
    have := (u1 C hC).ne_zero
    exact this (Matrix.det_eq_zero_of_row_eq_zero j fun k => congrFun h1 k))
  refine ⟨att, fun C hC j _ => ?_⟩
  exact hatt _ (List.mem_flatMap.2 ⟨C, hC, List.mem_map.2 ⟨j, List.mem_finRange _, rfl⟩⟩)

/-- **C81.** Every input has normal runs: with LLL reduced bases that start with a shortest vector and the powers `att⁰, att¹, …` as random vectors, the call returns. -/
theorem c81_runs_exist (α : Fin (n + 1) → ℕ) (hα : ∀ i, 0 < α i) (hg : ∀ d, (∀ i, d ∣ α i) → d = 1) (bySubsets topK : Bool) (k : ℕ) (hk : k ≤ n) :
    ∃ env : Env, (∀ n, (env.ntl n).Ok) ∧ ∃ o, (fresh α bySubsets).coeff env topK k = .ok o := by
  have hex : ∀ n, ∃ N : Ntl n, N.Ok ∧ ∀ h : n ≠ 0, @ExpSubst.ShortVectors n ⟨h⟩ N := by
    intro n
    rcases Nat.eq_zero_or_pos n with rfl | hn
    · obtain ⟨N, hN, _⟩ := Barvinok.reduces_satisfiable 0
      exact ⟨N, hN, fun h => absurd rfl h⟩
    · have : NeZero n := ⟨hn.ne'⟩
      obtain ⟨N, hN, hS⟩ := Barvinok.shortestRow_satisfiable n
      exact ⟨N, hN, fun _ => Brion.shortVectors_shortestRow N hN hS⟩
  choose ntl h1 h2 using hex
  obtain ⟨F, hF⟩ := c81_returns α hα hg bySubsets topK k hk ntl (fun n => h2 (n + 1) (Nat.succ_ne_zero n)) (fun _ a k => (a : ℤ) ^ k) fun S hS _ i => by
    refine moment_suffices ntl h1 _ (fun a ha => ?_) i _ ?_
    · obtain ⟨i, rfl⟩ := List.mem_ofFn.1 ha
      exact_mod_cast hα i
    · have hne : S.Nonempty := Finset.card_pos.1 (by omega)
      obtain ⟨j, hj⟩ := hne
      have := Nat.pos_of_dvd_of_pos (Finset.gcd_dvd (f := α) hj) (hα j)
      exact_mod_cast this
  exact ⟨_, h1, hF F le_rfl⟩

end Verif.TopK
