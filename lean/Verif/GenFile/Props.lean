import Verif.GenFile.Value
import Verif.Preprocess.EndToEnd

/-!
# The generating function files of `count` (C82)
-/

namespace Verif.GenFile

open Verif.Barvinok (Cone Mat Vec Ntl Variant rel row_ne_zero)
open Verif.Barvinok.Spec
open Verif.ExpSubst
open Verif.PolySubst
open Verif.Brion
open Verif.Irrational

variable {m k n N : ℕ}

/-! ## Specification -/

/-- **Specification.** `text` is an arithmetic expression in `x[0], …, x[n-1]` whose value at every point with non-zero coordinates (in any field of characteristic zero) where
none of the denominators `1 - x^r`, `r` in `R`, vanishes is the sum of the monomials `x^p`, `p` in `S`; the vectors in `R` are not zero. -/
structure IsGenFun (text : List Char) (R : List (Vec n)) (S : List (Vec n)) : Prop where
  nonzero : ∀ r ∈ R, r ≠ 0
  value : ∀ (K : Type) [Field K] [CharZero K] (x : ℕ → K), (∀ i < n, x i ≠ 0) → (∀ r ∈ R, monomial x r ≠ 1) →
    HasValue x text ((S.map (monomial x)).sum)

/-- Such a text, read as a rational function, is the sum of the monomials. -/
theorem IsGenFun.formal {text : List Char} {R S : List (Vec n)} (h : IsGenFun text R S) :
    HasValue (indet n) text ((S.map (monomial (indet n))).sum) :=
  h.value (RatFun n) (indet n) (fun i _ => indet_ne i) fun r hr => monomial_indet_ne_one r (h.nonzero r hr)

/-- Different finite sets have different sums of monomials. -/
theorem monomials_injective (S S' : List (Vec n)) (hS : S.Nodup) (hS' : S'.Nodup)
    (h : (S.map (monomial (indet n))).sum = (S'.map (monomial (indet n))).sum) : S.Perm S' := by
  classical
  have hx : ∀ i < n, indet n i ≠ 0 := fun i _ => indet_ne i
  -- translate everything to natural exponents
  let c : Vec n := fun l => ((S ++ S').map fun u => |u l|).sum
  have hc : ∀ u ∈ S ++ S', ∀ l, 0 ≤ u l + c l := by
    intro u hu l
    have h1 : |u l| ≤ c l := by
      refine List.single_le_sum (fun x hx => ?_) _ (List.mem_map_of_mem (f := fun u : Vec n => |u l|) hu)
      obtain ⟨v, -, rfl⟩ := List.mem_map.1 hx
      exact abs_nonneg _
    have := neg_abs_le (u l)
    omega
  let e : Vec n → Fin n →₀ ℕ := fun u => Finsupp.equivFunOnFinite.symm fun l => (u l + c l).toNat
  have he : ∀ u ∈ S ++ S', ∀ w ∈ S ++ S', e u = e w → u = w := by
    intro u hu w hw h
    have := Finsupp.equivFunOnFinite.symm.injective h
    funext l
    have h1 : (u l + c l).toNat = (w l + c l).toNat := congrFun this l
    have h2 := hc u hu l
    have h3 := hc w hw l
    omega
  have hm : ∀ u ∈ S ++ S', monomial (indet n) c * monomial (indet n) u =
      algebraMap (MvPolynomial (Fin n) ℚ) (RatFun n) (MvPolynomial.monomial (e u) 1) := by
    intro u hu
    rw [← monomial_add hx, ← monomial_nat]
    congr 1
    funext l
    have := hc u hu l
    show c l + u l = ((u l + c l).toNat : ℤ)
    omega
  have hsum : ∀ L : List (Vec n), (∀ u ∈ L, u ∈ S ++ S') → monomial (indet n) c * (L.map (monomial (indet n))).sum =
      algebraMap (MvPolynomial (Fin n) ℚ) (RatFun n) ((L.map fun u => MvPolynomial.monomial (e u) (1 : ℚ)).sum) := by
    intro L hL
    rw [← List.sum_map_mul_left, map_list_sum, List.map_map]
    congr 1
    exact List.map_congr_left fun u hu => hm u (hL u hu)
  have h1 : (S.map fun u => MvPolynomial.monomial (e u) (1 : ℚ)).sum = (S'.map fun u => MvPolynomial.monomial (e u) (1 : ℚ)).sum := by
    apply IsFractionRing.injective (MvPolynomial (Fin n) ℚ) (RatFun n)
    rw [← hsum S fun u hu => List.mem_append_left _ hu, ← hsum S' fun u hu => List.mem_append_right _ hu, h]
  have hcoeff : ∀ (L : List (Vec n)), L.Nodup → (∀ u ∈ L, u ∈ S ++ S') → ∀ w ∈ S ++ S',
      MvPolynomial.coeff (e w) ((L.map fun u => MvPolynomial.monomial (e u) (1 : ℚ)).sum) = if w ∈ L then 1 else 0 := by
    intro L
    induction L with
    | nil => intro _ _ w _; simp
    | cons u L ih =>
      intro hn hL w hw
      rw [List.nodup_cons] at hn
      rw [List.map_cons, List.sum_cons, MvPolynomial.coeff_add, MvPolynomial.coeff_monomial,
        ih hn.2 (fun v hv => hL v (List.mem_cons_of_mem _ hv)) w hw]
      by_cases huw : u = w
      · subst huw
        simp [hn.1]
      · rw [if_neg fun h => huw (he u (hL u List.mem_cons_self) w hw h)]
        simp [List.mem_cons, Ne.symm huw]
  apply (List.perm_ext_iff_of_nodup hS hS').2
  intro w
  constructor
  · intro hw
    have hw' := List.mem_append_left S' hw
    have h2 := hcoeff S hS (fun u hu => List.mem_append_left _ hu) w hw'
    rw [h1, hcoeff S' hS' (fun u hu => List.mem_append_right _ hu) w hw', if_pos hw] at h2
    by_contra hn
    rw [if_neg hn] at h2
    exact zero_ne_one h2
  · intro hw
    have hw' := List.mem_append_right S hw
    have h2 := hcoeff S' hS' (fun u hu => List.mem_append_right _ hu) w hw'
    rw [← h1, hcoeff S hS (fun u hu => List.mem_append_left _ hu) w hw', if_pos hw] at h2
    by_contra hn
    rw [if_neg hn] at h2
    exact zero_ne_one h2

/-- **A text is the generating function of at most one finite set.** -/
theorem IsGenFun.unique {text : List Char} {R R' S S' : List (Vec n)} (h : IsGenFun text R S) (h' : IsGenFun text R' S') (hS : S.Nodup) (hS' : S'.Nodup) :
    S.Perm S' := monomials_injective S S' hS hS' (h.formal.unique h'.formal)

/-! ## From cones to texts -/

/-- The rays of a list of cones. -/
def offRays (P : List (OffCone n)) : List (Vec n) := P.flatMap fun C => C.rays

/-- The rays of a list of cones. -/
def allRays (D : List (Cone n)) : List (Vec n) := D.flatMap fun C => List.ofFn fun i => C.rays i

/-- The cones have signs, points and rays. -/
def Complete (P : List (OffCone n)) : Prop := P ≠ [] ∧ ∀ C ∈ P, C.coefficient ≠ 0 ∧ C.points ≠ [] ∧ C.rays ≠ []

theorem Complete.writable {P : List (OffCone n)} (h : Complete P) {K : Type} [Field K] {x : ℕ → K} (hgen : ∀ r ∈ offRays P, monomial x r ≠ 1) :
    ∀ C ∈ P, Writable x C := fun C hC =>
  ⟨(h.2 C hC).1, (h.2 C hC).2.1, (h.2 C hC).2.2, fun r hr => hgen r (List.mem_flatMap.2 ⟨C, hC, hr⟩)⟩

theorem rat_isGenFun {P : List (OffCone n)} (h : Complete P) (S : List (Vec n)) (hnz : ∀ r ∈ offRays P, r ≠ 0)
    (hv : ∀ (K : Type) [Field K] [CharZero K] (x : ℕ → K), (∀ i < n, x i ≠ 0) → (∀ r ∈ offRays P, monomial x r ≠ 1) →
      (P.map (coneValue x)).sum = (S.map (monomial x)).sum) : IsGenFun (ratFile true P) (offRays P) S :=
  ⟨hnz, fun K _ _ x hx hgen => by rw [← hv K x hx hgen]; exact c82_rat_text hx P h.1 (h.writable hgen)⟩

theorem maple_isGenFun {P : List (OffCone n)} (h : Complete P) (S : List (Vec n)) (hnz : ∀ r ∈ offRays P, r ≠ 0)
    (hv : ∀ (K : Type) [Field K] [CharZero K] (x : ℕ → K), (∀ i < n, x i ≠ 0) → (∀ r ∈ offRays P, monomial x r ≠ 1) →
      (P.map (coneValue x)).sum = (S.map (monomial x)).sum) :
    ∃ body, mapleFile P = .ok ("gF:=".toList ++ body ++ ";\n".toList) ∧ IsGenFun body (offRays P) S := by
  cases P with
  | nil => exact absurd rfl h.1
  | cons C l =>
    refine ⟨writeCones C l, rfl, hnz, fun K _ _ x hx hgen => ?_⟩
    rw [← hv K x hx hgen]
    exact (w_cones hx C l (h.writable hgen C List.mem_cons_self) fun D hD => h.writable hgen D (List.mem_cons_of_mem _ hD)).hasValue

/-- The cone with its points. -/
def offCone (pts : Cone (m + 1) → List (Vec (m + 1))) (C : Cone (m + 1)) : OffCone (m + 1) := ⟨C.coefficient, pts C, List.ofFn fun i => C.rays i⟩

theorem offRays_map (pts : Cone (m + 1) → List (Vec (m + 1))) (L : List (Cone (m + 1))) : offRays (L.map (offCone pts)) = allRays L := by
  unfold offRays allRays
  rw [List.flatMap_map]
  rfl

/-- The cones delivered, in any order, with their points. -/
theorem delivered_value (N' : Ntl (m + 1)) (hN : N'.Ok) (X : Smith.Xgcd) (v : Variant)
    (irr : Cone (m + 1) → Fin (m + 1) → ℚ) (hirr : v = .irrationalPrimal → IrrOk irr) (maxDet : ℤ) (h0 : maxDet ≠ 0) (hmax : maxDet ≤ Piped.intMax)
    (fuel : ℕ) (hfuel : maxDet < fuel)
    (cones : List ((Fin (m + 1) → ℚ) × List (Mat (m + 1)))) (D : List (Cone (m + 1)))
    (hD : delivered N' v irr maxDet cones = some D) (hne : D ≠ [])
    (S : List (Vec (m + 1))) (hS : S.Nodup) (g : Vec (m + 1) → ℚ) (hg : g ∈ negligible (m + 1))
    (hind : ∀ z, (((cones.map fun c => (c.2.map fun B => inputInd v c.1 B z).sum).sum : ℤ) : ℚ) = (if z ∈ S then 1 else 0) + g z)
    (L : List (Cone (m + 1))) (hL : L.Perm D) :
    (∀ r ∈ allRays L, r ≠ 0) ∧
    ∃ pts : Cone (m + 1) → List (Vec (m + 1)), computePoints X fuel L = .ok (L.map (offCone pts)) ∧
      (∀ C ∈ L, ((pts C).length : ℤ) = |C.rays.det|) ∧ Complete (L.map (offCone pts)) ∧
      ∀ (K : Type) [Field K] [CharZero K] (x : ℕ → K), (∀ i < m + 1, x i ≠ 0) → (∀ r ∈ allRays L, monomial x r ≠ 1) →
        ((L.map (offCone pts)).map (coneValue x)).sum = (S.map (monomial x)).sum := by
  have hready := delivered_ready N' hN v irr maxDet h0 hmax fuel hfuel cones D hD
  obtain ⟨pts, h1, h2, h3⟩ := computePoints_all X fuel L fun C hC => hready C (hL.mem_iff.1 hC)
  obtain ⟨g', hg', hind'⟩ := delivered_sum N' hN X v irr hirr maxDet h0 hmax cones D hD S g hg hind
  have hsign := Digging.delivered_sign N' v irr maxDet cones D hD
  refine ⟨?_, pts, h1, fun C hC => (h3 C hC).1, ⟨?_, fun P hP => ?_⟩, ?_⟩
  · intro r hr
    obtain ⟨C, hC, h⟩ := List.mem_flatMap.1 hr
    obtain ⟨i, rfl⟩ := List.mem_ofFn.1 h
    obtain ⟨F, -, hG⟩ := (hready C (hL.mem_iff.1 hC)).facets
    exact row_ne_zero C.rays hG.ne i
  · intro h
    rw [List.map_eq_nil_iff] at h
    rw [h] at hL
    exact hne hL.nil_eq.symm
  · obtain ⟨C, hC, rfl⟩ := List.mem_map.1 hP
    refine ⟨?_, (h3 C hC).2, ?_⟩
    · show C.coefficient ≠ 0
      rcases hsign C (hL.mem_iff.1 hC) with h | h <;> rw [h] <;> decide
    · intro h
      have := congrArg List.length h
      simp [offCone] at this
  · intro K _ _ x hx hgen
    rw [List.map_map]
    refine cones_value hx L (fun C => C.coefficient) (fun C => List.ofFn fun i => C.rays i) pts (fun C => coneInd C.rays C.vertex) h2 ?_ S hS g' hg' ?_
    · intro C hC r hr
      exact hgen r (List.mem_flatMap.2 ⟨C, hC, hr⟩)
    · intro z
      rw [← hind' z, Int.cast_list_sum, List.map_map, (hL.map _).sum_eq]
      congr 1
      refine List.map_congr_left fun C _ => ?_
      simp only [Function.comp, coneInd]
      push_cast
      rfl

/-- **C82, the run with option `--multivariate-generating-function`.** Let the decomposition deliver the (non-empty) list `D` and let the inputs add up to the indicator of
`S`.  The file written is the generating function of `S`. -/
theorem c82_rat_run (N' : Ntl (m + 1)) (hN : N'.Ok) (X : Smith.Xgcd) (v : Variant)
    (irr : Cone (m + 1) → Fin (m + 1) → ℚ) (hirr : v = .irrationalPrimal → IrrOk irr) (maxDet : ℤ) (h0 : maxDet ≠ 0) (hmax : maxDet ≤ Piped.intMax)
    (fuel : ℕ) (hfuel : maxDet < fuel)
    (cones : List ((Fin (m + 1) → ℚ) × List (Mat (m + 1)))) (D : List (Cone (m + 1)))
    (hD : delivered N' v irr maxDet cones = some D) (hne : D ≠ [])
    (S : List (Vec (m + 1))) (hS : S.Nodup) (g : Vec (m + 1) → ℚ) (hg : g ∈ negligible (m + 1))
    (hind : ∀ z, (((cones.map fun c => (c.2.map fun B => inputInd v c.1 B z).sum).sum : ℤ) : ℚ) = (if z ∈ S then 1 else 0) + g z) :
    ∃ text, countRat N' X v irr maxDet fuel cones = .ok text ∧ IsGenFun text (allRays D) S := by
  obtain ⟨hnz, pts, h1, -, h3, h4⟩ := delivered_value N' hN X v irr hirr maxDet h0 hmax fuel hfuel cones D hD hne S hS g hg hind D (List.Perm.refl _)
  rw [← offRays_map pts] at hnz h4 ⊢
  refine ⟨_, ?_, rat_isGenFun h3 S hnz h4⟩
  unfold countRat
  rw [decomposeCones_eq N' v irr maxDet cones D hD]
  show (computePoints X fuel D.reverse.reverse >>= fun P => pure (ratFile true P)) = _
  rw [List.reverse_reverse, h1]
  rfl

/-- **C82, the file `.maple` of the run in memory.** -/
theorem c82_maple_run (N' : Ntl (m + 1)) (hN : N'.Ok) (X : Smith.Xgcd) (v : Variant)
    (irr : Cone (m + 1) → Fin (m + 1) → ℚ) (hirr : v = .irrationalPrimal → IrrOk irr) (maxDet : ℤ) (h0 : maxDet ≠ 0) (hmax : maxDet ≤ Piped.intMax)
    (fuel : ℕ) (hfuel : maxDet < fuel)
    (cones : List ((Fin (m + 1) → ℚ) × List (Mat (m + 1)))) (D : List (Cone (m + 1)))
    (hD : delivered N' v irr maxDet cones = some D) (hne : D ≠ [])
    (S : List (Vec (m + 1))) (hS : S.Nodup) (g : Vec (m + 1) → ℚ) (hg : g ∈ negligible (m + 1))
    (hind : ∀ z, (((cones.map fun c => (c.2.map fun B => inputInd v c.1 B z).sum).sum : ℤ) : ℚ) = (if z ∈ S then 1 else 0) + g z) :
    ∃ body, countMaple N' X v irr maxDet fuel cones = .ok ("gF:=".toList ++ body ++ ";\n".toList) ∧ IsGenFun body (allRays D.reverse) S := by
  obtain ⟨hnz, pts, h1, -, h3, h4⟩ := delivered_value N' hN X v irr hirr maxDet h0 hmax fuel hfuel cones D hD hne S hS g hg hind D.reverse
    (List.reverse_perm _)
  rw [← offRays_map pts] at hnz h4 ⊢
  obtain ⟨body, hb, hg⟩ := maple_isGenFun h3 S hnz h4
  refine ⟨body, ?_, hg⟩
  unfold countMaple
  rw [decomposeCones_eq N' v irr maxDet cones D hD]
  show (computePoints X fuel D.reverse >>= fun P => mapleFile P) = _
  rw [h1]
  exact hb

/-! ## Polytopes -/

/-- **C82 in dual mode.** If the lattice reduction always finds short vectors, the file `.rat` written for a non-empty polytope is the generating function of its lattice
points, whatever maximal index is allowed. -/
theorem c82_rat_dual (N' : Ntl (m + 1)) (hN : N'.Ok) (hs : ShortVectors N') (X : Smith.Xgcd) (irr : Cone (m + 1) → Fin (m + 1) → ℚ)
    (maxDet : ℤ) (h1 : 1 ≤ maxDet) (hmax : maxDet ≤ Piped.intMax) (fuel : ℕ) (hfuel : maxDet < fuel)
    (a : Fin N → Vec (m + 1)) (b : Fin N → ℚ) (S : List (Vec (m + 1))) (hS : LatticePoints a b S)
    (cones : List ((Fin (m + 1) → ℚ) × List (Mat (m + 1)))) (hne : cones ≠ []) (hvs : IsVertexList a b (cones.map (·.1)))
    (hT : ∀ c ∈ cones, Triangulation c.2 (normal a b c.1)) :
    ∃ text R, countRat N' X .dual irr maxDet fuel cones = .ok text ∧ IsGenFun text R S := by
  obtain ⟨D, hD⟩ := delivered_dual N' hs irr maxDet h1 cones fun c hc => (hT c hc).simplicial
  obtain ⟨g, hg, hind⟩ := dual_indicators a b cones hvs hT S hS .dual (by decide)
  obtain ⟨text, e, h⟩ := c82_rat_run N' hN X .dual irr (by intro h; cases h) maxDet (by omega) hmax fuel hfuel cones D hD
    (delivered_nonempty N' hN .dual irr maxDet cones (input_nonempty a b cones hne hT) D hD) S hS.nodup g hg hind
  exact ⟨text, _, e, h⟩

/-- **C82 in dual mode**, the file `.maple`. -/
theorem c82_maple_dual (N' : Ntl (m + 1)) (hN : N'.Ok) (hs : ShortVectors N') (X : Smith.Xgcd) (irr : Cone (m + 1) → Fin (m + 1) → ℚ)
    (maxDet : ℤ) (h1 : 1 ≤ maxDet) (hmax : maxDet ≤ Piped.intMax) (fuel : ℕ) (hfuel : maxDet < fuel)
    (a : Fin N → Vec (m + 1)) (b : Fin N → ℚ) (S : List (Vec (m + 1))) (hS : LatticePoints a b S)
    (cones : List ((Fin (m + 1) → ℚ) × List (Mat (m + 1)))) (hne : cones ≠ []) (hvs : IsVertexList a b (cones.map (·.1)))
    (hT : ∀ c ∈ cones, Triangulation c.2 (normal a b c.1)) :
    ∃ body R, countMaple N' X .dual irr maxDet fuel cones = .ok ("gF:=".toList ++ body ++ ";\n".toList) ∧ IsGenFun body R S := by
  obtain ⟨D, hD⟩ := delivered_dual N' hs irr maxDet h1 cones fun c hc => (hT c hc).simplicial
  obtain ⟨g, hg, hind⟩ := dual_indicators a b cones hvs hT S hS .dual (by decide)
  obtain ⟨text, e, h⟩ := c82_maple_run N' hN X .dual irr (by intro h; cases h) maxDet (by omega) hmax fuel hfuel cones D hD
    (delivered_nonempty N' hN .dual irr maxDet cones (input_nonempty a b cones hne hT) D hD) S hS.nodup g hg hind
  exact ⟨text, _, e, h⟩

/-- **C82 for the irrational primal variant.** -/
theorem c82_rat_irrationalPrimal (N' : Ntl (m + 1)) (hN : N'.Ok) (hR : N'.ShortestRow) (X : Smith.Xgcd) (depth : Cone (m + 1) → ℕ)
    (hd : ∀ C, Barvinok.Wf C → EstimateOk depth C) (maxDet : ℤ) (h1 : 1 ≤ maxDet) (hmax : maxDet ≤ Piped.intMax) (fuel : ℕ) (hfuel : maxDet < fuel)
    (a : Fin N → Vec (m + 1)) (b : Fin N → ℚ) (S : List (Vec (m + 1))) (hS : LatticePoints a b S)
    (cones : List ((Fin (m + 1) → ℚ) × List (Mat (m + 1)))) (hne : cones ≠ []) (hvs : IsVertexList a b (cones.map (·.1)))
    (hT : ∀ c ∈ cones, Triangulation c.2 (normal a b c.1)) :
    ∃ text R, countRat N' X .irrationalPrimal (irrVertex depth) maxDet fuel cones = .ok text ∧ IsGenFun text R S := by
  obtain ⟨D, hD⟩ := delivered_of_single N' .irrationalPrimal (irrVertex depth) maxDet cones
    fun c hc B hB out md => single_irrationalPrimal N' hN hR depth hd maxDet h1 B ((hT c hc).simplicial B hB) c.1 out md
  obtain ⟨g, hg, hind⟩ := dual_indicators a b cones hvs hT S hS .irrationalPrimal (by decide)
  obtain ⟨text, e, h⟩ := c82_rat_run N' hN X .irrationalPrimal (irrVertex depth) (fun _ C z hC => by
      obtain ⟨w, hw, hsame, -⟩ := c63_simplicial depth C hC (Nat.succ_pos m)
      have : irrVertex depth C = w := by unfold irrVertex; rw [hw]; rfl
      rw [this]
      exact hsame z) maxDet (by omega) hmax fuel hfuel cones D hD
    (delivered_nonempty N' hN .irrationalPrimal _ maxDet cones (input_nonempty a b cones hne hT) D hD) S hS.nodup g hg hind
  exact ⟨text, _, e, h⟩

/-! ## Equations -/

/-- The value of a cone put into the original coordinates. -/
theorem coneValue_lifted {K : Type} [Field K] {x : ℕ → K} {β : Type*} (hx : ∀ i < k + 1, x i ≠ 0) (p : Vec (k + 1)) (B : Fin n → Vec (k + 1)) (y : ℕ → K)
    (hy : ∀ j : Fin n, y j.val = monomial x (B j)) (eps : β → ℤ) (rays : β → List (Vec n)) (pt : β → Vec n) (b : β) :
    coneValue x (lifted p B eps rays pt b) = monomial x p * coneValue y ⟨eps b, [pt b], rays b⟩ := by
  unfold coneValue lifted Preprocess.projectUp
  have e1 : monomial x (fun l => p l + ∑ j, B j l * pt b j) = monomial x p * monomial y (pt b) := by
    rw [← monomial_sum hx B y hy]
    exact monomial_add hx p fun l => ∑ j, B j l * pt b j
  simp only [List.map_cons, List.map_nil, List.sum_cons, List.sum_nil, add_zero, e1, List.map_map]
  have e2 : (rays b).map ((fun r => 1 - monomial x r) ∘ fun r l => ∑ j, B j l * r j) = (rays b).map fun r => 1 - monomial y r := by
    refine List.map_congr_left fun r _ => ?_
    simp only [Function.comp]
    rw [monomial_sum hx B y hy]
  rw [e2]
  ring

/-- The rays of the cones in the original coordinates. -/
def liftedRays (B : Fin (m + 1) → Vec (k + 1)) (D : List (Cone (m + 1))) : List (Vec (k + 1)) :=
  D.flatMap fun C => List.ofFn fun i => fun l => ∑ j, B j l * C.rays i j

/-- The unimodular cones delivered, in any order, put into the original coordinates. -/
theorem delivered_value_projected (p : Vec (k + 1)) (B : Fin (m + 1) → Vec (k + 1)) (hB : ∀ u : Vec (m + 1), u ≠ 0 → (fun l => ∑ j, B j l * u j) ≠ 0)
    (N' : Ntl (m + 1)) (hN : N'.Ok) (X : Smith.Xgcd) (v : Variant)
    (irr : Cone (m + 1) → Fin (m + 1) → ℚ) (hirr : v = .irrationalPrimal → IrrOk irr) (fuel : ℕ) (hfuel : 1 < fuel)
    (cones : List ((Fin (m + 1) → ℚ) × List (Mat (m + 1)))) (D : List (Cone (m + 1)))
    (hD : delivered N' v irr 1 cones = some D) (hne : D ≠ [])
    (S : List (Vec (m + 1))) (hS : S.Nodup) (g : Vec (m + 1) → ℚ) (hg : g ∈ negligible (m + 1))
    (hind : ∀ z, (((cones.map fun c => (c.2.map fun B => inputInd v c.1 B z).sum).sum : ℤ) : ℚ) = (if z ∈ S then 1 else 0) + g z)
    (L : List (Cone (m + 1))) (hL : L.Perm D) :
    ∃ P Q, computePoints X fuel L = .ok P ∧ projectUpCones p B P = .ok Q ∧ offRays Q = liftedRays B L ∧ (∀ r ∈ liftedRays B L, r ≠ 0) ∧ Complete Q ∧
      ∀ (K : Type) [Field K] [CharZero K] (x : ℕ → K), (∀ i < k + 1, x i ≠ 0) → (∀ r ∈ liftedRays B L, monomial x r ≠ 1) →
        (Q.map (coneValue x)).sum = ((S.map fun z => fun l => p l + ∑ j, B j l * z j).map (monomial x)).sum := by
  obtain ⟨hnz, pts, h1, h2, h3, h4⟩ := delivered_value N' hN X v irr hirr 1 one_ne_zero (by decide) fuel (by exact_mod_cast hfuel) cones D hD hne S hS g hg hind L hL
  have huni := delivered_unimodular N' hN v irr cones D hD
  have hpt : ∀ C ∈ L, pts C = [(pts C).headD 0] := by
    intro C hC
    have := h2 C hC
    rw [huni C (hL.mem_iff.1 hC)] at this
    obtain ⟨pt, e⟩ := List.length_eq_one_iff.1 (by exact_mod_cast this : (pts C).length = 1)
    rw [e]
    rfl
  have e0 : L.map (offCone pts) = L.map fun C => (⟨C.coefficient, [(pts C).headD 0], List.ofFn fun i => C.rays i⟩ : OffCone (m + 1)) := by
    refine List.map_congr_left fun C hC => ?_
    unfold offCone
    rw [← hpt C hC]
  have hrays : offRays (L.map (lifted p B (fun C : Cone (m + 1) => C.coefficient) (fun C => List.ofFn fun i => C.rays i) (fun C => (pts C).headD 0))) =
      liftedRays B L := by
    unfold offRays liftedRays
    rw [List.flatMap_map]
    refine List.flatMap_congr fun C _ => ?_
    simp only [lifted, Preprocess.projectUp, List.map_ofFn]
    rfl
  refine ⟨_, _, h1, ?_, hrays, ?_, ⟨?_, ?_⟩, ?_⟩
  · rw [e0]
    exact projectUpCones_map p B (fun C : Cone (m + 1) => C.coefficient) (fun C => List.ofFn fun i => C.rays i) (fun C => (pts C).headD 0) L
  · intro r hr
    obtain ⟨C, hC, h⟩ := List.mem_flatMap.1 hr
    obtain ⟨i, rfl⟩ := List.mem_ofFn.1 h
    exact hB _ (hnz _ (List.mem_flatMap.2 ⟨C, hC, List.mem_ofFn.2 ⟨i, rfl⟩⟩))
  · have := h3.1
    simpa using this
  · intro P hP
    obtain ⟨C, hC, rfl⟩ := List.mem_map.1 hP
    obtain ⟨c1, c2, c3⟩ := h3.2 _ (List.mem_map_of_mem hC)
    refine ⟨c1, by simp [lifted], ?_⟩
    simp only [lifted, Preprocess.projectUp]
    intro h
    exact c3 (List.map_eq_nil_iff.1 h)
  · intro K _ _ x hx hgen
    let y : ℕ → K := fun j => if h : j < m + 1 then monomial x (B ⟨j, h⟩) else 1
    have hy : ∀ j : Fin (m + 1), y j.val = monomial x (B j) := fun j => dif_pos j.isLt
    have hy0 : ∀ i < m + 1, y i ≠ 0 := fun i hi => by
      show (if h : i < m + 1 then _ else _) ≠ 0
      rw [dif_pos hi]
      exact monomial_ne hx _
    have h5 := h4 K y hy0 fun r hr => by
      obtain ⟨C, hC, h⟩ := List.mem_flatMap.1 hr
      obtain ⟨i, rfl⟩ := List.mem_ofFn.1 h
      rw [← monomial_sum hx B y hy]
      exact hgen _ (List.mem_flatMap.2 ⟨C, hC, List.mem_ofFn.2 ⟨i, rfl⟩⟩)
    rw [e0, List.map_map] at h5
    rw [List.map_map, List.map_map]
    have e1 : ∀ C : Cone (m + 1), (coneValue x ∘ lifted p B (fun C : Cone (m + 1) => C.coefficient) (fun C => List.ofFn fun i => C.rays i)
        (fun C => (pts C).headD 0)) C = monomial x p * (coneValue y ∘ fun C : Cone (m + 1) =>
          (⟨C.coefficient, [(pts C).headD 0], List.ofFn fun i => C.rays i⟩ : OffCone (m + 1))) C :=
      fun C => coneValue_lifted hx p B y hy _ _ _ C
    rw [List.map_congr_left fun C _ => e1 C, List.sum_map_mul_left, h5, ← List.sum_map_mul_left]
    congr 1
    refine List.map_congr_left fun z _ => ?_
    simp only [Function.comp]
    rw [← monomial_sum hx B y hy]
    exact (monomial_add hx p _).symm

/-- **C82 with equations**, the file `.rat`. -/
theorem c82_rat_run_projected (p : Vec (k + 1)) (B : Fin (m + 1) → Vec (k + 1)) (hB : ∀ u : Vec (m + 1), u ≠ 0 → (fun l => ∑ j, B j l * u j) ≠ 0)
    (N' : Ntl (m + 1)) (hN : N'.Ok) (X : Smith.Xgcd) (v : Variant)
    (irr : Cone (m + 1) → Fin (m + 1) → ℚ) (hirr : v = .irrationalPrimal → IrrOk irr) (fuel : ℕ) (hfuel : 1 < fuel)
    (cones : List ((Fin (m + 1) → ℚ) × List (Mat (m + 1)))) (D : List (Cone (m + 1)))
    (hD : delivered N' v irr 1 cones = some D) (hne : D ≠ [])
    (S : List (Vec (m + 1))) (hS : S.Nodup) (g : Vec (m + 1) → ℚ) (hg : g ∈ negligible (m + 1))
    (hind : ∀ z, (((cones.map fun c => (c.2.map fun B => inputInd v c.1 B z).sum).sum : ℤ) : ℚ) = (if z ∈ S then 1 else 0) + g z) :
    ∃ text, countRatProjected p B N' X v irr 1 fuel cones = .ok text ∧
      IsGenFun text (liftedRays B D) (S.map fun z => fun l => p l + ∑ j, B j l * z j) := by
  obtain ⟨P, Q, h1, h2, h3, h4, h5, h6⟩ := delivered_value_projected p B hB N' hN X v irr hirr fuel hfuel cones D hD hne S hS g hg hind D (List.Perm.refl _)
  rw [← h3] at h4 h6 ⊢
  refine ⟨_, ?_, rat_isGenFun h5 _ h4 h6⟩
  unfold countRatProjected
  rw [decomposeCones_eq N' v irr 1 cones D hD]
  show (computePoints X fuel D.reverse.reverse >>= fun P => projectUpCones p B P >>= fun P => pure (ratFile true P)) = _
  rw [List.reverse_reverse, h1]
  show (projectUpCones p B P >>= fun P => pure (ratFile true P)) = _
  rw [h2]
  rfl

/-- **C82 with equations**, the file `.maple`. -/
theorem c82_maple_run_projected (p : Vec (k + 1)) (B : Fin (m + 1) → Vec (k + 1)) (hB : ∀ u : Vec (m + 1), u ≠ 0 → (fun l => ∑ j, B j l * u j) ≠ 0)
    (N' : Ntl (m + 1)) (hN : N'.Ok) (X : Smith.Xgcd) (v : Variant)
    (irr : Cone (m + 1) → Fin (m + 1) → ℚ) (hirr : v = .irrationalPrimal → IrrOk irr) (fuel : ℕ) (hfuel : 1 < fuel)
    (cones : List ((Fin (m + 1) → ℚ) × List (Mat (m + 1)))) (D : List (Cone (m + 1)))
    (hD : delivered N' v irr 1 cones = some D) (hne : D ≠ [])
    (S : List (Vec (m + 1))) (hS : S.Nodup) (g : Vec (m + 1) → ℚ) (hg : g ∈ negligible (m + 1))
    (hind : ∀ z, (((cones.map fun c => (c.2.map fun B => inputInd v c.1 B z).sum).sum : ℤ) : ℚ) = (if z ∈ S then 1 else 0) + g z) :
    ∃ body, countMapleProjected p B N' X v irr 1 fuel cones = .ok ("gF:=".toList ++ body ++ ";\n".toList) ∧
      IsGenFun body (liftedRays B D.reverse) (S.map fun z => fun l => p l + ∑ j, B j l * z j) := by
  obtain ⟨P, Q, h1, h2, h3, h4, h5, h6⟩ := delivered_value_projected p B hB N' hN X v irr hirr fuel hfuel cones D hD hne S hS g hg hind D.reverse
    (List.reverse_perm _)
  rw [← h3] at h4 h6 ⊢
  obtain ⟨body, hb, hg⟩ := maple_isGenFun h5 _ h4 h6
  refine ⟨body, ?_, hg⟩
  unfold countMapleProjected
  rw [decomposeCones_eq N' v irr 1 cones D hD]
  show (computePoints X fuel D.reverse >>= fun P => projectUpCones p B P >>= fun P => mapleFile P) = _
  rw [h1]
  show (projectUpCones p B P >>= fun P => mapleFile P) = _
  rw [h2]
  exact hb

theorem IsGenFun.perm {text : List Char} {R S S' : List (Vec n)} (h : IsGenFun text R S) (hp : S.Perm S') : IsGenFun text R S' :=
  ⟨h.nonzero, fun K _ _ x hx hgen => by rw [← (hp.map (monomial x)).sum_eq]; exact h.value K x hx hgen⟩

/-- The points of the reduced polytope and those of the dilated one. -/
theorem solutions_perm {q hfuel : ℕ} {eqs : Fin q → Preprocess.Row (k + 1)} {ineqs : List (Preprocess.Row (k + 1))} {cost : Fin (k + 1) → ℤ} {dil : ℤ}
    (hi : ineqs ≠ []) (hmn : q ≤ k + 1) (hs : Preprocess.IntSolvable eqs ∨ Preprocess.Independent eqs) {out : List (Preprocess.Row (m + 1))}
    {p : Fin (k + 1) → ℤ} {B : Fin (m + 1) → Fin (k + 1) → ℤ} {newCost : Fin (m + 1) → ℤ}
    (hrun : Preprocess.preprocessProblem hfuel eqs ineqs cost dil = .reduced (m + 1) out p B newCost)
    (S : List (Vec (m + 1))) (hS : LatticePoints (Preprocess.rowNormals out) (Preprocess.rowBounds out) S)
    (T : List (Vec (k + 1))) (hTn : T.Nodup) (hTm : ∀ z, z ∈ T ↔ z ∈ Preprocess.solutions eqs ineqs dil) :
    (S.map fun z => fun l => p l + ∑ j, B j l * z j).Perm (T.map fun z => z + (1 - dil) • p) := by
  have hbij := (Preprocess.c67_lattice_points hi hmn hs hrun).1
  have hperm : (S.map (Preprocess.lift dil p B)).Perm T := by
    apply (List.perm_ext_iff_of_nodup ?_ hTn).2
    · intro z
      rw [hTm z, ← hbij.image_eq, List.mem_map]
      constructor
      · rintro ⟨u, hu, rfl⟩
        exact ⟨u, (Preprocess.latticePoints_feasible hS u).1 hu, rfl⟩
      · rintro ⟨u, hu, rfl⟩
        exact ⟨u, (Preprocess.latticePoints_feasible hS u).2 hu, rfl⟩
    · refine List.Nodup.map_on (fun u hu w hw h => hbij.injOn ((Preprocess.latticePoints_feasible hS u).1 hu)
        ((Preprocess.latticePoints_feasible hS w).1 hw) h) hS.nodup
  have := hperm.map fun z => z + (1 - dil) • p
  rw [List.map_map] at this
  refine List.Perm.trans (List.Perm.of_eq ?_) this
  refine List.map_congr_left fun z _ => ?_
  funext l
  simp only [Function.comp, Preprocess.lift, Pi.add_apply, Pi.smul_apply, smul_eq_mul]
  rw [Finset.sum_congr rfl fun j _ => mul_comm (B j l) (z j)]
  ring

section Equations

variable {q hfuel : ℕ} {eqs : Fin q → Preprocess.Row (k + 1)} {ineqs : List (Preprocess.Row (k + 1))} {cost : Fin (k + 1) → ℤ} {dil : ℤ}
  {out : List (Preprocess.Row (m + 1))} {p : Fin (k + 1) → ℤ} {B : Fin (m + 1) → Fin (k + 1) → ℤ} {newCost : Fin (m + 1) → ℤ}

/-- A polytope given by equations and inequalities, dilated by `dil`, with `p` the integer solution of the equations found: both files are the generating function of
the integer points of the dilated polytope *translated by* `(1 - dil) p`. -/
theorem c82_dilated
    (hi : ineqs ≠ []) (hmn : q ≤ k + 1) (hs : Preprocess.IntSolvable eqs ∨ Preprocess.Independent eqs)
    (hrun : Preprocess.preprocessProblem hfuel eqs ineqs cost dil = .reduced (m + 1) out p B newCost)
    (N' : Ntl (m + 1)) (hN : N'.Ok) (hsv : ShortVectors N') (X : Smith.Xgcd) (irr : Cone (m + 1) → Fin (m + 1) → ℚ)
    (fuel : ℕ) (hfuel' : 1 < fuel)
    (S : List (Vec (m + 1))) (hS : LatticePoints (Preprocess.rowNormals out) (Preprocess.rowBounds out) S)
    (cones : List ((Fin (m + 1) → ℚ) × List (Mat (m + 1)))) (hne : cones ≠ [])
    (hvs : IsVertexList (Preprocess.rowNormals out) (Preprocess.rowBounds out) (cones.map (·.1)))
    (hT : ∀ c ∈ cones, Triangulation c.2 (normal (Preprocess.rowNormals out) (Preprocess.rowBounds out) c.1))
    (T : List (Vec (k + 1))) (hTn : T.Nodup) (hTm : ∀ z, z ∈ T ↔ z ∈ Preprocess.solutions eqs ineqs dil) :
    (∃ text R, countRatProjected p B N' X .dual irr 1 fuel cones = .ok text ∧ IsGenFun text R (T.map fun z => z + (1 - dil) • p)) ∧
    ∃ body R, countMapleProjected p B N' X .dual irr 1 fuel cones = .ok ("gF:=".toList ++ body ++ ";\n".toList) ∧
      IsGenFun body R (T.map fun z => z + (1 - dil) • p) := by
  obtain ⟨D, hD⟩ := delivered_dual N' hsv irr 1 le_rfl cones fun c hc => (hT c hc).simplicial
  obtain ⟨g, hg, hind⟩ := dual_indicators _ _ cones hvs hT S hS .dual (by decide)
  have hDne := delivered_nonempty N' hN .dual irr 1 cones (input_nonempty _ _ cones hne hT) D hD
  have hp := solutions_perm hi hmn hs hrun S hS T hTn hTm
  constructor
  · obtain ⟨text, e, h⟩ := c82_rat_run_projected p B (fun u hu => basis_injective hi hmn hrun u hu) N' hN X .dual irr (by intro h; cases h) fuel hfuel' cones D hD
      hDne S hS.nodup g hg hind
    exact ⟨text, _, e, h.perm hp⟩
  · obtain ⟨text, e, h⟩ := c82_maple_run_projected p B (fun u hu => basis_injective hi hmn hrun u hu) N' hN X .dual irr (by intro h; cases h) fuel hfuel' cones D hD
      hDne S hS.nodup g hg hind
    exact ⟨text, _, e, h.perm hp⟩

/-- **C82 with C67.** A polytope given by equations and inequalities, not dilated: both files are the generating function of its integer points, in the original
coordinates. -/
theorem c82_equations
    (hi : ineqs ≠ []) (hmn : q ≤ k + 1) (hs : Preprocess.IntSolvable eqs ∨ Preprocess.Independent eqs)
    (hrun : Preprocess.preprocessProblem hfuel eqs ineqs cost 1 = .reduced (m + 1) out p B newCost)
    (N' : Ntl (m + 1)) (hN : N'.Ok) (hsv : ShortVectors N') (X : Smith.Xgcd) (irr : Cone (m + 1) → Fin (m + 1) → ℚ)
    (fuel : ℕ) (hfuel' : 1 < fuel)
    (S : List (Vec (m + 1))) (hS : LatticePoints (Preprocess.rowNormals out) (Preprocess.rowBounds out) S)
    (cones : List ((Fin (m + 1) → ℚ) × List (Mat (m + 1)))) (hne : cones ≠ [])
    (hvs : IsVertexList (Preprocess.rowNormals out) (Preprocess.rowBounds out) (cones.map (·.1)))
    (hT : ∀ c ∈ cones, Triangulation c.2 (normal (Preprocess.rowNormals out) (Preprocess.rowBounds out) c.1))
    (T : List (Vec (k + 1))) (hTn : T.Nodup) (hTm : ∀ z, z ∈ T ↔ z ∈ Preprocess.solutions eqs ineqs 1) :
    (∃ text R, countRatProjected p B N' X .dual irr 1 fuel cones = .ok text ∧ IsGenFun text R T) ∧
    ∃ body R, countMapleProjected p B N' X .dual irr 1 fuel cones = .ok ("gF:=".toList ++ body ++ ";\n".toList) ∧ IsGenFun body R T := by
  have h := c82_dilated hi hmn hs hrun N' hN hsv X irr fuel hfuel' S hS cones hne hvs hT T hTn hTm
  have e : (T.map fun z => z + ((1 : ℤ) - 1) • p) = T := by simp
  rw [e] at h
  exact h

/-- **Violation: dilation.** With equations and a dilation factor other than `1`, the files are not the generating function of the lattice points of the dilated polytope,
unless the solution `p` of the equations is zero or there are no points. -/
theorem c82_violated_dilation (hdil : dil ≠ 1) (hp : p ≠ 0)
    (hi : ineqs ≠ []) (hmn : q ≤ k + 1) (hs : Preprocess.IntSolvable eqs ∨ Preprocess.Independent eqs)
    (hrun : Preprocess.preprocessProblem hfuel eqs ineqs cost dil = .reduced (m + 1) out p B newCost)
    (N' : Ntl (m + 1)) (hN : N'.Ok) (hsv : ShortVectors N') (X : Smith.Xgcd) (irr : Cone (m + 1) → Fin (m + 1) → ℚ)
    (fuel : ℕ) (hfuel' : 1 < fuel)
    (S : List (Vec (m + 1))) (hS : LatticePoints (Preprocess.rowNormals out) (Preprocess.rowBounds out) S)
    (cones : List ((Fin (m + 1) → ℚ) × List (Mat (m + 1)))) (hne : cones ≠ [])
    (hvs : IsVertexList (Preprocess.rowNormals out) (Preprocess.rowBounds out) (cones.map (·.1)))
    (hT : ∀ c ∈ cones, Triangulation c.2 (normal (Preprocess.rowNormals out) (Preprocess.rowBounds out) c.1))
    (T : List (Vec (k + 1))) (hTn : T.Nodup) (hTm : ∀ z, z ∈ T ↔ z ∈ Preprocess.solutions eqs ineqs dil) (hT0 : T ≠ []) :
    ∃ text, countRatProjected p B N' X .dual irr 1 fuel cones = .ok text ∧ ∀ R, ¬ IsGenFun text R T := by
  obtain ⟨⟨text, R, e, h⟩, -⟩ := c82_dilated hi hmn hs hrun N' hN hsv X irr fuel hfuel' S hS cones hne hvs hT T hTn hTm
  refine ⟨text, e, fun R' h' => ?_⟩
  have hperm := h.unique h' (hTn.map (add_left_injective _)) hTn
  obtain ⟨l, hl⟩ : ∃ l, p l ≠ 0 := by
    by_contra hcon
    push Not at hcon
    exact hp (funext hcon)
  have hsum := (hperm.map fun z => z l).sum_eq
  rw [List.map_map] at hsum
  have e2 : (T.map ((fun z : Vec (k + 1) => z l) ∘ fun z => z + (1 - dil) • p)).sum = (T.map fun z => z l).sum + T.length * ((1 - dil) * p l) := by
    clear hperm h h' hTn hTm hT0 hsum
    induction T with
    | nil => simp
    | cons z T ih =>
      simp only [List.map_cons, List.sum_cons, ih, Function.comp, Pi.add_apply, Pi.smul_apply, smul_eq_mul, List.length_cons]
      push_cast
      ring
  rw [e2] at hsum
  have h3 : (T.length : ℤ) * ((1 - dil) * p l) = 0 := by omega
  rcases mul_eq_zero.1 h3 with h4 | h4
  · exact hT0 (List.length_eq_zero_iff.1 (by exact_mod_cast h4))
  · rcases mul_eq_zero.1 h4 with h5 | h5
    · exact hdil (by omega)
    · exact hl h5

end Equations

end Verif.GenFile
