import Verif.PolySubst.Total
import Verif.Brion.Size
import Verif.Brion.Example

/-!
# C70: the default of `count`, from the polytope to the number

As for the exponential substitution (C65) the vertex cones of the polytope are decomposed; the polynomial substitution then gives the number of lattice
points, provided the parallelepipeds contain at most `5·10⁹` points altogether.
-/

namespace Verif.PolySubst

open Verif.Barvinok (Cone Mat Vec Ntl Variant Wf)
open Verif.Barvinok.Spec Verif.ExpSubst Verif.Irrational Verif.Brion

variable {N m : ℕ}

/-- **Specification.** The number of lattice points in the parallelepipeds of the cones: the number of terms the program adds up. -/
def terms (D : List (Cone (m + 1))) : ℕ := (D.map fun C => C.rays.det.natAbs).sum

theorem le_intMax {maxDet : ℤ} (h1 : 1 ≤ maxDet) (hmax : ((m + 1 : ℕ) : ℤ) * maxDet ≤ Piped.intMax) : maxDet ≤ Piped.intMax :=
  le_trans (le_mul_of_one_le_left (by omega) (by push_cast; omega)) hmax

/-- The number of terms is at most `max_determinant` times the number of cones. -/
theorem terms_le (N' : Ntl (m + 1)) (hN : N'.Ok) (v : Variant) (irr : Cone (m + 1) → Fin (m + 1) → ℚ)
    (maxDet : ℤ) (h1 : 1 ≤ maxDet) (hmax : ((m + 1 : ℕ) : ℤ) * maxDet ≤ Piped.intMax)
    (cones : List ((Fin (m + 1) → ℚ) × List (Mat (m + 1)))) (D : List (Cone (m + 1)))
    (hD : delivered N' v irr maxDet cones = some D) : terms D ≤ D.length * maxDet.toNat := by
  have hr := delivered_ready N' hN v irr maxDet (by omega) (le_intMax h1 hmax) (maxDet.toNat + 1) (by omega) cones D hD
  unfold terms
  have : ∀ L : List (Cone (m + 1)), (∀ C ∈ L, C.rays.det.natAbs ≤ maxDet.toNat) → (L.map fun C => C.rays.det.natAbs).sum ≤ L.length * maxDet.toNat := by
    intro L hL
    induction L with
    | nil => simp
    | cons C L ih =>
      rw [List.map_cons, List.sum_cons, List.length_cons, Nat.succ_mul]
      have h1 := hL C List.mem_cons_self
      have h2 := ih fun C hC => hL C (List.mem_cons_of_mem _ hC)
      omega
  refine this D fun C hC => ?_
  have := (hr C hC).fuel
  rw [Int.abs_eq_natAbs] at this
  omega

/-- **C70, total correctness in dual mode.** If the lattice reduction always finds short vectors, cones `D` are delivered that do not depend on the
vectors tried, there are vectors not orthogonal to any of their rays, and if `D` has at most `5·10⁹` terms the program ends with the number of
lattice points of the polytope in the first round in which such a vector is tried. -/
theorem c70_total_dual (N' : Ntl (m + 1)) (hN : N'.Ok) (hs : ShortVectors N') (X : Smith.Xgcd) (irr : Cone (m + 1) → Fin (m + 1) → ℚ)
    (maxDet : ℤ) (h1 : 1 ≤ maxDet) (hmax : ((m + 1 : ℕ) : ℤ) * maxDet ≤ Piped.intMax) (fuel : ℕ) (hfuel : maxDet < fuel)
    (a : Fin N → Vec (m + 1)) (b : Fin N → ℚ) (S : List (Vec (m + 1))) (hS : LatticePoints a b S)
    (cones : List ((Fin (m + 1) → ℚ) × List (Mat (m + 1)))) (hvs : IsVertexList a b (cones.map (·.1)))
    (hT : ∀ c ∈ cones, Triangulation c.2 (normal a b c.1)) :
    ∃ D : List (Cone (m + 1)), delivered N' .dual irr maxDet cones = some D ∧ (∃ lam, GenericFor lam D) ∧
      (terms D ≤ 5 * 10 ^ 9 → ∀ (t : ℕ) (guesses : ℕ → Vec (m + 1)),
        (∀ s < t, ¬ GenericFor (guesses s) D) → GenericFor (guesses t) D → ∀ tries, t < tries →
        decomposeAndComputeResidue N' X .dual irr maxDet fuel cones tries guesses = .ok (S.length : ℤ)) := by
  have h0 : maxDet ≠ 0 := by omega
  obtain ⟨D, hD⟩ := delivered_dual N' hs irr maxDet h1 cones fun c hc => (hT c hc).simplicial
  obtain ⟨g, hg, hind⟩ := dual_indicators a b cones hvs hT S hS .dual (by decide)
  refine ⟨D, hD, c42_generic_vector_exists N' hN .dual irr maxDet h0 (le_intMax h1 hmax) cones D hD, fun hterms t guesses hbad hgood tries ht => ?_⟩
  exact c70_ends N' hN X .dual irr (by intro h; cases h) maxDet h1 hmax fuel hfuel cones D hD hterms S hS.nodup g hg hind t guesses hbad
    hgood tries ht

/-- **C70 in dual mode, dimension at most four:** the search for short vectors never fails by the contract of LLL. -/
theorem c70_total_dual_dim_le_four (hm : m + 1 ≤ 4) (N' : Ntl (m + 1)) (hN : N'.Ok) (hR : N'.Reduces) (X : Smith.Xgcd)
    (irr : Cone (m + 1) → Fin (m + 1) → ℚ)
    (maxDet : ℤ) (h1 : 1 ≤ maxDet) (hmax : ((m + 1 : ℕ) : ℤ) * maxDet ≤ Piped.intMax) (fuel : ℕ) (hfuel : maxDet < fuel)
    (a : Fin N → Vec (m + 1)) (b : Fin N → ℚ) (S : List (Vec (m + 1))) (hS : LatticePoints a b S)
    (cones : List ((Fin (m + 1) → ℚ) × List (Mat (m + 1)))) (hvs : IsVertexList a b (cones.map (·.1)))
    (hT : ∀ c ∈ cones, Triangulation c.2 (normal a b c.1)) :
    ∃ D : List (Cone (m + 1)), delivered N' .dual irr maxDet cones = some D ∧ (∃ lam, GenericFor lam D) ∧
      (terms D ≤ 5 * 10 ^ 9 → ∀ (t : ℕ) (guesses : ℕ → Vec (m + 1)),
        (∀ s < t, ¬ GenericFor (guesses s) D) → GenericFor (guesses t) D → ∀ tries, t < tries →
        decomposeAndComputeResidue N' X .dual irr maxDet fuel cones tries guesses = .ok (S.length : ℤ)) :=
  c70_total_dual N' hN (shortVectors_dim_le_four hm N' hN hR) X irr maxDet h1 hmax fuel hfuel a b S hS cones hvs hT

/-- **C70 in dual mode, every dimension, with a condition on the input alone:** if the reduced bases start with a shortest vector and Barvinok's
bound for the given simplices is at most `5·10⁹`, the program ends with the number of lattice points in the first round in which a generic
vector is tried. -/
theorem c70_total_dual_shortest (N' : Ntl (m + 1)) (hN : N'.Ok) (hR : N'.ShortestRow) (X : Smith.Xgcd)
    (irr : Cone (m + 1) → Fin (m + 1) → ℚ)
    (maxDet : ℤ) (h1 : 1 ≤ maxDet) (hmax : ((m + 1 : ℕ) : ℤ) * maxDet ≤ Piped.intMax) (fuel : ℕ) (hfuel : maxDet < fuel)
    (a : Fin N → Vec (m + 1)) (b : Fin N → ℚ) (S : List (Vec (m + 1))) (hS : LatticePoints a b S)
    (cones : List ((Fin (m + 1) → ℚ) × List (Mat (m + 1)))) (hvs : IsVertexList a b (cones.map (·.1)))
    (hT : ∀ c ∈ cones, Triangulation c.2 (normal a b c.1)) (d : Mat (m + 1) → ℕ)
    (hd : ∀ c ∈ cones, ∀ B ∈ c.2, Nat.size B.det.natAbs * m ^ d B ≤ (m + 1) ^ d B)
    (hsize : (cones.map fun c => (c.2.map fun B => (m + 1) ^ d B).sum).sum * maxDet.toNat ≤ 5 * 10 ^ 9) :
    ∃ D : List (Cone (m + 1)), (∃ lam, GenericFor lam D) ∧ ∀ (t : ℕ) (guesses : ℕ → Vec (m + 1)),
        (∀ s < t, ¬ GenericFor (guesses s) D) → GenericFor (guesses t) D → ∀ tries, t < tries →
        decomposeAndComputeResidue N' X .dual irr maxDet fuel cones tries guesses = .ok (S.length : ℤ) := by
  obtain ⟨D, hD, hg, h⟩ := c70_total_dual N' hN (shortVectors_shortestRow N' hN hR) X irr maxDet h1 hmax fuel hfuel a b S hS cones hvs hT
  refine ⟨D, hg, h ((terms_le N' hN .dual irr maxDet h1 hmax cones D hD).trans (le_trans (Nat.mul_le_mul_right _ ?_) hsize))⟩
  exact c71_barvinok N' hN hR maxDet h1 .dual irr cones D hD d hd

/-- **C70, total correctness of the irrational primal variant.** -/
theorem c70_total_irrationalPrimal (N' : Ntl (m + 1)) (hN : N'.Ok) (hR : N'.ShortestRow) (X : Smith.Xgcd) (depth : Cone (m + 1) → ℕ)
    (hd : ∀ C, Wf C → EstimateOk depth C)
    (maxDet : ℤ) (h1 : 1 ≤ maxDet) (hmax : ((m + 1 : ℕ) : ℤ) * maxDet ≤ Piped.intMax) (fuel : ℕ) (hfuel : maxDet < fuel)
    (a : Fin N → Vec (m + 1)) (b : Fin N → ℚ) (S : List (Vec (m + 1))) (hS : LatticePoints a b S)
    (cones : List ((Fin (m + 1) → ℚ) × List (Mat (m + 1)))) (hvs : IsVertexList a b (cones.map (·.1)))
    (hT : ∀ c ∈ cones, Triangulation c.2 (normal a b c.1)) :
    ∃ D : List (Cone (m + 1)), delivered N' .irrationalPrimal (irrVertex depth) maxDet cones = some D ∧ (∃ lam, GenericFor lam D) ∧
      (terms D ≤ 5 * 10 ^ 9 → ∀ (t : ℕ) (guesses : ℕ → Vec (m + 1)),
        (∀ s < t, ¬ GenericFor (guesses s) D) → GenericFor (guesses t) D → ∀ tries, t < tries →
        decomposeAndComputeResidue N' X .irrationalPrimal (irrVertex depth) maxDet fuel cones tries guesses = .ok (S.length : ℤ)) := by
  have h0 : maxDet ≠ 0 := by omega
  obtain ⟨D, hD⟩ := delivered_of_single N' .irrationalPrimal (irrVertex depth) maxDet cones
    fun c hc B hB out md => single_irrationalPrimal N' hN hR depth hd maxDet h1 B ((hT c hc).simplicial B hB) c.1 out md
  obtain ⟨g, hg, hind⟩ := dual_indicators a b cones hvs hT S hS .irrationalPrimal (by decide)
  refine ⟨D, hD, c42_generic_vector_exists N' hN .irrationalPrimal _ maxDet h0 (le_intMax h1 hmax) cones D hD,
    fun hterms t guesses hbad hgood tries ht => ?_⟩
  refine c70_ends N' hN X .irrationalPrimal _ (fun _ C z hC => ?_) maxDet h1 hmax fuel hfuel cones D hD hterms S hS.nodup g hg hind t guesses
    hbad hgood tries ht
  obtain ⟨w, hw, hsame, -⟩ := c63_simplicial depth C hC (Nat.succ_pos m)
  have : irrVertex depth C = w := by unfold irrVertex; rw [hw]; rfl
  rw [this]
  exact hsame z

/-- **C70, total correctness of the irrational all-primal variant.** -/
theorem c70_total_irrationalAllPrimal (N' : Ntl (m + 1)) (hN : N'.Ok) (hR : N'.ShortestRow) (X : Smith.Xgcd)
    (irr : Cone (m + 1) → Fin (m + 1) → ℚ) (lp : Solver (m + 1)) (hlp : SolverOk lp) (depth : VertexCone (m + 1) → ℕ)
    (hd : ∀ C, EstimateGeneralOk (depth C) C.rays)
    (maxDet : ℤ) (h1 : 1 ≤ maxDet) (hmax : ((m + 1 : ℕ) : ℤ) * maxDet ≤ Piped.intMax) (fuel : ℕ) (hfuel : maxDet < fuel)
    (a : Fin N → Vec (m + 1)) (b : Fin N → ℚ) (S : List (Vec (m + 1))) (hS : LatticePoints a b S)
    (cones : List (VertexCone (m + 1))) (hvs : IsVertexList a b (cones.map (·.vertex))) (hC : ∀ C ∈ cones, TangentCone a b C) :
    ∃ moved, irrationalizeCones lp depth cones = some moved ∧
      ∃ D : List (Cone (m + 1)), delivered N' .irrationalAllPrimal irr maxDet moved = some D ∧ (∃ lam, GenericFor lam D) ∧
        (terms D ≤ 5 * 10 ^ 9 → ∀ (t : ℕ) (guesses : ℕ → Vec (m + 1)),
          (∀ s < t, ¬ GenericFor (guesses s) D) → GenericFor (guesses t) D → ∀ tries, t < tries →
          decomposeAndComputeResidue N' X .irrationalAllPrimal irr maxDet fuel moved tries guesses = .ok (S.length : ℤ)) := by
  have h0 : maxDet ≠ 0 := by omega
  have hd1 : ∀ C, 1 ≤ depth C := by
    intro C
    obtain ⟨t, ht, -⟩ := hd C
    omega
  obtain ⟨moved, hm, hs⟩ := allPrimal_cones a b lp hlp depth hd1 cones hC
  obtain ⟨D, hD⟩ := delivered_of_single N' .irrationalAllPrimal irr maxDet moved (by
    intro c hc B hB out md
    obtain ⟨C, hCm, hsim, hw⟩ := moved_spec lp depth cones moved hm c hc
    have ht := hC C hCm
    obtain ⟨u, hu⟩ := inner_point a b C ht
    rw [hsim] at hB
    exact single_allPrimal N' hN hR irr lp hlp (depth C) C.rays C.facets (hd C) ht.facets_ne ht.facet_ne C.vertex u hu c.1 hw maxDet h1 B
      (ht.triangulated.simplicial B hB) (ht.rays B hB) out md)
  refine ⟨moved, hm, D, hD, c42_generic_vector_exists N' hN .irrationalAllPrimal _ maxDet h0 (le_intMax h1 hmax) moved D hD,
    fun hterms t guesses hbad hgood tries ht => ?_⟩
  obtain ⟨g, hg, hv⟩ := vertex_sum a b _ hvs S hS
  refine c70_ends N' hN X .irrationalAllPrimal irr (by intro h; cases h) maxDet h1 hmax fuel hfuel moved D hD hterms S hS.nodup g hg
    (fun z => ?_) t guesses hbad hgood tries ht
  rw [← hv z, List.map_map]
  exact congrArg _ (hs z)

/-! ### The hypotheses are satisfiable -/

/-- The default run of `count` on the triangle with corners `(0,0)`, `(2,0)`, `(0,1)`: with some lattice reduction that keeps the contract and some
vector the first round ends with four. -/
example (X : Smith.Xgcd) : ∃ (N' : Ntl 2) (lam : Vec 2), N'.Ok ∧ N'.ShortestRow ∧
    decomposeAndComputeResidue (m := 1) N' X .dual (fun C => C.vertex) 1 2 Brion.Triangle.cones 1 (fun _ => lam) = .ok 4 := by
  obtain ⟨N', hN, hR⟩ := Barvinok.shortestRow_satisfiable 2
  obtain ⟨D, ⟨lam, hlam⟩, h⟩ := c70_total_dual_shortest (m := 1) N' hN hR X (fun C => C.vertex) 1 le_rfl (by decide) 2 (by norm_num)
    Brion.Triangle.a Brion.Triangle.b Brion.Triangle.S Brion.Triangle.lattice Brion.Triangle.cones Brion.Triangle.vertices
    Brion.Triangle.triangulations (fun _ => 1) (by decide +kernel) (by decide +kernel)
  exact ⟨N', lam, hN, hR, h 0 (fun _ => lam) (by intro s hs; omega) hlam 1 (by norm_num)⟩

end Verif.PolySubst
