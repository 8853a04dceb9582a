import Verif.Series.Total

/-!
# C73: consequences, the missing case, and an example
-/

namespace Verif.Series

open Verif.PolySubst (tenPowerConst)
open Verif.ExpSubst (delivered decompositionList)
open Verif.Barvinok (Cone Mat Vec Ntl Variant)
open Verif.Barvinok.Spec (cone)
open Verif.Brion (Triangulation coneOf LatticePoints dilate)

variable {N m : ℕ}

/-- **C73, polytopes of dimension at most three:** the search for short vectors never fails by the contract of LLL. -/
theorem c73_total_dim_le_three (hm : m ≤ 3) (N' : Ntl (m + 1)) (hN : N'.Ok) (hR : N'.Reduces) (X : Smith.Xgcd) (irr : Cone (m + 1) → Fin (m + 1) → ℚ)
    (a : Fin N → Vec m) (b : Fin N → ℤ) (T : List (Mat (m + 1))) (junk : ℕ → Ref) (degree : ℕ) (hdeg : 1 ≤ degree)
    (S : ℕ → List (Vec m)) (hS : ∀ n, LatticePoints a (dilate n fun i => (b i : ℚ)) (S n))
    (hne : ∃ p : Fin m → ℚ, ∀ i, ∑ k, (a i k : ℚ) * p k ≤ b i) (hT : Triangulation T (coneOf (homog a b) Set.univ)) :
    ∃ D : List (Cone (m + 1)), delivered N' .dual irr 1 [(0, T)] = some D ∧ (∃ lam, GenericSeries lam D) ∧
      (D.length ≤ 5 * 10 ^ 9 → ∀ (tries : ℕ) (guesses : ℕ → Vec (m + 1)) (p : Pool), (∃ t < tries, GenericSeries (guesses t) D) →
        ehrhartTaylor N' .dual irr 1 junk degree [(0, T)] tries guesses p = .ok (expected S degree)) :=
  c73_total N' hN irr a b T X (Brion.shortVectors_dim_le_four (by omega) N' hN hR) junk degree hdeg S hS hne hT

/-- **C73, every dimension, with a condition on the input alone:** if the reduced bases start with a shortest vector and Barvinok's bound for the given
simplices is at most `5·10⁹`, the numbers printed are the numbers of lattice points of the dilations. -/
theorem c73_total_shortest (N' : Ntl (m + 1)) (hN : N'.Ok) (hR : N'.ShortestRow) (X : Smith.Xgcd) (irr : Cone (m + 1) → Fin (m + 1) → ℚ)
    (a : Fin N → Vec m) (b : Fin N → ℤ) (T : List (Mat (m + 1))) (junk : ℕ → Ref) (degree : ℕ) (hdeg : 1 ≤ degree)
    (S : ℕ → List (Vec m)) (hS : ∀ n, LatticePoints a (dilate n fun i => (b i : ℚ)) (S n))
    (hne : ∃ p : Fin m → ℚ, ∀ i, ∑ k, (a i k : ℚ) * p k ≤ b i) (hT : Triangulation T (coneOf (homog a b) Set.univ)) (d : Mat (m + 1) → ℕ)
    (hd : ∀ B ∈ T, Nat.size B.det.natAbs * m ^ d B ≤ (m + 1) ^ d B) (hsize : (T.map fun B => (m + 1) ^ d B).sum ≤ 5 * 10 ^ 9) :
    ∃ D : List (Cone (m + 1)), (∃ lam, GenericSeries lam D) ∧
      ∀ (tries : ℕ) (guesses : ℕ → Vec (m + 1)) (p : Pool), (∃ t < tries, GenericSeries (guesses t) D) →
        ehrhartTaylor N' .dual irr 1 junk degree [(0, T)] tries guesses p = .ok (expected S degree) := by
  obtain ⟨D, hD, hg, h⟩ := c73_total N' hN irr a b T X (Brion.shortVectors_shortestRow N' hN hR) junk degree hdeg S hS hne hT
  refine ⟨D, hg, h (le_trans ?_ hsize)⟩
  have := Brion.c71_barvinok N' hN hR 1 le_rfl .dual irr [(0, T)] D hD d (by
    intro c hc B hB
    rw [List.mem_singleton] at hc
    subst hc
    exact hd B hB)
  simpa using this

/-! ### `--ehrhart-taylor=0` -/

theorem mkP_poly {op : Op} {num : ℕ} {cs : List Ref} {p p' : Pool} {r : Ref} (h : mkP op num cs p = .ok (r, p')) :
    (∃ i, r = .poly i) ∧ p'.degree = p.degree := by
  unfold mkP at h
  split at h
  · cases h
  · cases h
    exact ⟨⟨_, rfl⟩, rfl⟩

theorem coneExpression_poly {junk : ℕ → Ref} {order : ℕ} {D : ConeData} {p p' : Pool} {r : Ref} (h : coneExpression junk order D p = .ok (r, p')) :
    ∃ i, r = .poly i := by
  unfold coneExpression at h
  dsimp only at h
  split at h
  · cases h
  split at h
  · cases h
  split at h
  · cases h
  split at h
  · cases h
  unfold finalNode at h
  split at h
  · cases h
  split at h
  · cases h
  rename_i q p1 hq
  split at h
  · cases h
    exact (mkP_poly hq).1
  · exact (mkP_poly h).1

theorem taylor_too_long (T : ℤ) (fuel i : ℕ) (p : Pool) (h : p.degree = 0) : taylor 1 T (fuel + 1) (.poly i) p = .error .undefined := by
  unfold taylor
  rw [if_pos (by omega)]

/-- **C73, the missing case.** With `--ehrhart-taylor=0` the program computes two coefficients but has room for one: as soon as a generic vector is
tried first it writes beyond the end of its arrays. -/
theorem c73_degree_zero_violated (N' : Ntl (m + 1)) (hN : N'.Ok) (X : Smith.Xgcd) (irr : Cone (m + 1) → Fin (m + 1) → ℚ)
    (a : Fin N → Vec m) (b : Fin N → ℤ) (T : List (Mat (m + 1))) (D : List (Cone (m + 1))) (hD : delivered N' .dual irr 1 [(0, T)] = some D)
    (junk : ℕ → Ref) (S : ℕ → List (Vec m)) (hS : ∀ n, LatticePoints a (dilate n fun i => (b i : ℚ)) (S n))
    (hne : ∃ p : Fin m → ℚ, ∀ i, ∑ k, (a i k : ℚ) * p k ≤ b i) (hT : Triangulation T (coneOf (homog a b) Set.univ))
    (tries : ℕ) (guesses : ℕ → Vec (m + 1)) (hgen : GenericSeries (guesses 0) D) (p : Pool) :
    ehrhartTaylor N' .dual irr 1 junk 0 [(0, T)] (tries + 1) guesses p = .error .undefined := by
  -- at least one cone is delivered, because the origin is a point of the zeroth dilation
  have hD0 : D ≠ [] := by
    rintro rfl
    obtain ⟨r, p', h1, h2⟩ := series_accept N' hN irr a b T [] X hD junk 1 1 le_rfl (guesses 0) (by intro C hC; cases hC)
      { p.reset with width := m + 3, degree := 1 } ⟨rfl, rfl, rfl⟩ S hS hne hT
    obtain ⟨r2, p2, h3, h4⟩ := series_accept N' hN irr a b T [] X hD junk 2 1 le_rfl (guesses 0) (by intro C hC; cases hC)
      { p.reset with width := m + 3, degree := 1 } ⟨rfl, rfl, rfl⟩ S hS hne hT
    have hr : r = r2 := by
      have e : ∀ Tn : ℤ, seriesOnce N' .dual irr 1 junk Tn 1 [(0, T)] (guesses 0) { p.reset with width := m + 3, degree := 1 } =
          .ok (some fun _ => 0, { p.reset with width := m + 3, degree := 1 }) := by
        intro Tn
        unfold delivered at hD
        split at hD
        · rename_i out md hrun
          cases hD
          obtain ⟨new, e, a1, -⟩ := ExpSubst.list_follows N' Variant.dual.mode 1 (fun C => acceptSeries (guesses 0) C) .dual irr [(0, T)] [] 0 _ _ hrun
          rw [List.nil_append] at e
          subst e
          have hrun' := a1 (by simp)
          unfold seriesOnce
          simp only [hrun', totalSeries]
        · cases hD
      rw [e] at h1 h3
      cases h1
      cases h3
      rfl
    subst hr
    have e1 := (h2 0 (by norm_num)).1
    have e2 := (h4 0 (by norm_num)).1
    have h0 : (0 : Vec m) ∈ S 0 := by
      rw [mem_iff a b 0 (S 0) (hS 0)]
      intro i
      simp
    have hpos : 0 < (S 0).length := List.length_pos_of_mem h0
    simp only [List.length_nil, Nat.cast_zero] at e1 e2
    have e1' := abs_nonpos_iff.1 e1
    have e2' := abs_nonpos_iff.1 e2
    omega
  have hsigned := delivered_signed N' hN irr T D hD
  obtain ⟨C, D', rfl⟩ : ∃ C D', D = C :: D' := List.exists_cons_of_ne_nil hD0
  have hC := hsigned C List.mem_cons_self
  have hdet : |C.determinant| = 1 := by
    have h1 := hC.index.2
    have h2 := abs_pos.2 hC.index.1
    omega
  set p0 : Pool := { p.reset with width := (m + 1) + 1 + 1, degree := 0 } with hp0
  have hgs := gens_ok (guesses 0) _ hgen C List.mem_cons_self
  have herr : ∀ acc, residueFunctionSingle junk tenPowerConst 0 (guesses 0) C acc p0 = .error .undefined := by
    intro acc
    obtain ⟨gs', σ, ρ, θ, e1, e2, e3, e4, e5, e6, e7, e8⟩ := simplify_spec (coneGens (guesses 0) C) (by
      intro g hg
      obtain ⟨i, rfl⟩ := List.mem_ofFn.1 hg
      rfl) hgs ⟨[], C.coefficient, 0, 0⟩
    simp only [List.nil_append, zero_add] at e1
    obtain ⟨q, hq⟩ := exists_quotient gs' e5 (numSeries ⟨gs', C.coefficient * σ, ρ, θ⟩)
    have hlen : (coneGens (guesses 0) C).length = m + 1 := by simp [coneGens]
    have hord : poleOrder (coneGens (guesses 0) C) ≤ m + 1 := by
      rw [← hlen]; exact List.length_filter_le _ _
    obtain ⟨c, p1, h1, h2, -⟩ := coneExpression_spec 0 tenPowerConst junk (poleOrder (coneGens (guesses 0) C)) ⟨gs', C.coefficient * σ, ρ, θ⟩ e3 e4 e5
      (by intro h; change gs' = [] at h; rw [h, hlen] at e6; cases e6) p0 (by simp only [hp0]; omega) (by simp only [hp0]; omega) (by simp only [hp0]; omega) q hq
    obtain ⟨i, rfl⟩ := coneExpression_poly h1
    unfold residueFunctionSingle
    rw [if_neg (by simpa using hC.vertex), if_neg (by simpa using hdet)]
    have hany : ((List.ofFn fun i => readGen (guesses 0) (C.rays i)).any fun g => decide (g.r = 0 ∧ g.t = 0)) = false := by
      rw [List.any_eq_false]
      intro g hg
      simpa using hgs g hg
    dsimp only
    rw [hany, if_neg (by simp)]
    have e1' : simplify (List.ofFn fun i => readGen (guesses 0) (C.rays i)) ⟨[], C.coefficient, 0, 0⟩ = ⟨gs', C.coefficient * σ, ρ, θ⟩ := e1
    have h1' : coneExpression junk (poleOrder (List.ofFn fun i => readGen (guesses 0) (C.rays i))) ⟨gs', C.coefficient * σ, ρ, θ⟩ p0 = .ok (.poly i, p1) := h1
    rw [e1', h1']
    dsimp only
    have he : expansionDegree 0 = 1 := rfl
    rw [he, taylor_too_long _ _ _ _ (h2.degree.trans rfl)]
  unfold delivered at hD
  split at hD
  · rename_i out md hrun
    cases hD
    obtain ⟨new, e, a1, -⟩ := ExpSubst.list_follows N' Variant.dual.mode 1 (fun C => acceptSeries (guesses 0) C) .dual irr [(0, T)] [] 0 _ _ hrun
    rw [List.nil_append] at e
    subst e
    have hrun' := a1 fun C hC => (acceptSeries_iff (guesses 0) C).2 (hgen C hC)
    unfold ehrhartTaylor seriesLoop seriesOnce
    simp only [hrun', totalSeries]
    rw [← hp0, herr]
  · cases hD

/-! ### The hypotheses are satisfiable -/

namespace Segment

/-- The segment `0 ≤ x ≤ 2`. -/
def a : Fin 2 → Vec 1 := ![![1], ![-1]]
def b : Fin 2 → ℤ := ![2, 0]
def B : Mat 2 := ![![1, -2], ![-1, 0]]
def S (n : ℕ) : List (Vec 1) := (List.range (2 * n + 1)).map fun i : ℕ => fun _ => (i : ℤ)

theorem points (n : ℕ) : LatticePoints a (dilate n fun i => (b i : ℚ)) (S n) := by
  refine ⟨?_, fun z => ?_⟩
  · refine (List.nodup_map_iff ?_).2 List.nodup_range
    intro i j h
    have : (i : ℤ) = (j : ℤ) := congrFun h 0
    exact_mod_cast this
  · have h1 : (∀ i, ∑ k, (a i k : ℚ) * (z k : ℚ) ≤ dilate n (fun i => (b i : ℚ)) i) ↔ (z 0 ≤ 2 * n ∧ 0 ≤ z 0) := by
      rw [Fin.forall_fin_two]
      simp only [a, b, dilate, Fin.sum_univ_one, Matrix.cons_val_zero, Matrix.cons_val_one, Matrix.cons_val_fin_one]
      constructor
      · rintro ⟨h1, h2⟩
        push_cast at h1 h2
        constructor
        · have : (z 0 : ℚ) ≤ ((2 * n : ℤ) : ℚ) := by push_cast; linarith
          exact_mod_cast this
        · have : (0 : ℚ) ≤ (z 0 : ℚ) := by linarith
          exact_mod_cast this
      · rintro ⟨h1, h2⟩
        have h1' : (z 0 : ℚ) ≤ ((2 * n : ℤ) : ℚ) := by exact_mod_cast h1
        have h2' : (0 : ℚ) ≤ (z 0 : ℚ) := by exact_mod_cast h2
        push_cast at h1' ⊢
        constructor <;> linarith
    rw [h1]
    unfold S
    rw [List.mem_map]
    constructor
    · rintro ⟨i, hi, rfl⟩
      rw [List.mem_range] at hi
      constructor <;> push_cast <;> omega
    · rintro ⟨h1, h2⟩
      refine ⟨(z 0).toNat, by rw [List.mem_range]; omega, ?_⟩
      funext k
      rw [Subsingleton.elim k 0]
      exact Int.toNat_of_nonneg h2

theorem homog_eq (i : Fin 2) : homog a b i = B i := by
  funext k
  show (homog a b i : Fin 2 → ℤ) k = B i k
  fin_cases i <;> refine Fin.lastCases ?_ (fun j => ?_) k <;> (try obtain rfl := Subsingleton.elim j 0) <;> rfl

theorem triangulation : Triangulation [B] (coneOf (homog a b) Set.univ) := by
  refine ⟨?_, fun p => ?_, List.pairwise_singleton _ _⟩
  · intro B' hB
    rw [List.mem_singleton] at hB
    subst hB
    decide
  · simp only [List.mem_singleton, exists_eq_left]
    constructor
    · rintro ⟨c, h1, -, h3⟩
      refine ⟨c, h1, ?_⟩
      funext k
      rw [h3 k]
      unfold Barvinok.Spec.comb
      exact Finset.sum_congr rfl fun i _ => by rw [homog_eq]
    · rintro ⟨c, h1, h2⟩
      refine ⟨c, h1, fun i h => absurd (Set.mem_univ i) h, fun k => ?_⟩
      rw [h2]
      unfold Barvinok.Spec.comb
      exact Finset.sum_congr rfl fun i _ => by rw [homog_eq]

end Segment

/-- `count --ehrhart-taylor=3` on the segment `0 ≤ x ≤ 2`: with some lattice reduction that keeps the contract and some vector the numbers printed are 1, 3, 5, 7. -/
example (X : Smith.Xgcd) (junk : ℕ → Ref) (p : Pool) : ∃ (N' : Ntl 2) (lam : Vec 2), N'.Ok ∧ N'.ShortestRow ∧
    ehrhartTaylor (m := 1) N' .dual (fun C => C.vertex) 1 junk 3 [(0, [Segment.B])] 1 (fun _ => lam) p = .ok [1, 3, 5, 7] := by
  obtain ⟨N', hN, hR⟩ := Barvinok.shortestRow_satisfiable 2
  obtain ⟨D, ⟨lam, hlam⟩, h⟩ := c73_total_shortest (m := 1) N' hN hR X (fun C => C.vertex) Segment.a Segment.b [Segment.B] junk 3 (by norm_num) Segment.S
    Segment.points ⟨fun _ => 0, by
      intro i
      fin_cases i <;> simp [Segment.a, Segment.b]⟩ Segment.triangulation (fun _ => 1) (by decide +kernel) (by decide +kernel)
  refine ⟨N', lam, hN, hR, ?_⟩
  rw [h 1 (fun _ => lam) p ⟨0, by norm_num, hlam⟩]
  decide +kernel

end Verif.Series
