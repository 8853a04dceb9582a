import Verif.Barvinok.Dfs

/-!
# Barvinok's decomposition: the properties (C16, C17, C18)
-/

namespace Verif.Barvinok

open Spec Matrix

/-- **C16.** One step on a cone with facets in place, for any behaviour of NTL within its contract.
There is one vector `Z` such that the cones returned are the given cone with one ray replaced by
`Z` (with the same vertex); the entries that are NULL are exactly the degenerate ones; and at every
point on no facet hyperplane of the given cone or of one of the returned cones, the signed sum of
the indicators of the returned cones equals that of the given cone. -/
theorem step_exact {n : ℕ} [NeZero n] {N : Ntl n} (hN : N.Ok) {C : Cone n} (hC : Wf C)
    {Z : Vec n} {ch : Fin n → Option (Cone n)} (h : barvinokStep N C = some (Z, ch)) :
    (∀ i, ch i = none ↔ (C.rays.updateRow i Z).det = 0) ∧
    (∀ i c, ch i = some c → c.rays = C.rays.updateRow i Z ∧ c.vertex = C.vertex ∧ Wf c ∧
      |c.determinant| < |C.determinant|) ∧
    ∀ p, ¬ OnFacetPlane C.rays p → (∀ i c, ch i = some c → ¬ OnFacetPlane c.rays p) →
      C.coefficient * ind (cone C.rays) p =
        ∑ i, match ch i with
          | none => 0
          | some c => c.coefficient * ind (cone c.rays) p := by
  obtain ⟨rfl, hpos, hlt⟩ := barvinokStep_spec hN hC h
  refine ⟨fun i => ?_, fun i c hc => ?_, fun p hp hpc => ?_⟩
  · constructor
    · intro hi
      by_contra hne
      obtain ⟨c, hc, -⟩ := childrenOf_some C Z i hne
      rw [hi] at hc; cases hc
    · exact childrenOf_none C Z i
  · have hi : detsOf C.rays Z i ≠ 0 := by
      intro hi; rw [childrenOf_none C Z i hi] at hc; cases hc
    obtain ⟨c', hc', hwf, hr, hv, hd, -⟩ := childrenOf_some C Z i hi
    rw [hc] at hc'; cases hc'
    exact ⟨hr, hv, hwf, hd ▸ hlt i⟩
  · rw [step_identity hC hpos p hp hpc]
    rfl

/-- **C17.** Termination and index bound. The recursion is a total function (Lean accepted it with
the determinant as measure); moreover its depth is bounded by the index of the input cone, and
whenever it returns (with 1 or with -1), every cone handed to the consumer has the determinant of
its rays recorded, non-zero and within the requested bound, keeps the vertex, and has facet normals
dual to its rays. -/
theorem dfs_terminates_bounded {n : ℕ} [NeZero n] (P : Params n) (hP : P.ntl.Ok) (C : Cone n)
    (hC : Wf C) (depth : ℕ) (out : List (Cone n)) (md : ℕ) {ok : Bool} {out' : List (Cone n)}
    {md' : ℕ} (h : dfs P C depth out md = .done ok out' md') :
    md' ≤ max md (depth + C.determinant.natAbs - 1) ∧
    ∃ new, out' = out ++ new ∧ ∀ D ∈ new,
      D.determinant = D.rays.det ∧ D.determinant ≠ 0 ∧
      (P.maxDet ≠ 0 → |D.determinant| ≤ P.maxDet) ∧ D.vertex = C.vertex ∧
      ∃ F, D.facets = some F ∧ (∀ j, 0 < D.facetDivisors j) ∧
        ∀ i j, ∑ k, D.rays i k * F j k = if i = j then -D.facetDivisors j else 0 := by
  have := dfs_inv P hP _ C rfl hC depth out md
  rw [h] at this
  obtain ⟨new, h1, h2, h3, -⟩ := this
  refine ⟨h3, new, h1, fun D hD => ?_⟩
  obtain ⟨F, hF, -, -, hd⟩ := (h2 D hD).facets
  exact ⟨(h2 D hD).det_eq, (h2 D hD).det_ne, fun h0 => (h2 D hD).index.resolve_left h0,
    (h2 D hD).vertex, F, hF, (h2 D hD).div_pos, hd⟩

/-- In unimodular mode every delivered cone is unimodular. -/
theorem dfs_unimodular {n : ℕ} [NeZero n] (P : Params n) (hP : P.ntl.Ok) (h1 : P.maxDet = 1)
    (C : Cone n) (hC : Wf C) (depth : ℕ) (md : ℕ) {ok : Bool} {out' : List (Cone n)}
    {md' : ℕ} (h : dfs P C depth [] md = .done ok out' md') :
    ∀ D ∈ out', D.rays.det = 1 ∨ D.rays.det = -1 := by
  obtain ⟨-, new, rfl, hD⟩ := dfs_terminates_bounded P hP C hC depth [] md h
  intro D hmem
  obtain ⟨e, h0, hb, -⟩ := hD D (by simpa using hmem)
  have hb := hb (by rw [h1]; decide)
  rw [h1] at hb
  rw [← e]
  rcases abs_le.mp hb with ⟨h2, h3⟩
  omega

theorem dfs_identity {n : ℕ} [NeZero n] (P : Params n) (hP : P.ntl.Ok) (C : Cone n) (hC : Wf C)
    (depth : ℕ) (out : List (Cone n)) (md : ℕ) {out' : List (Cone n)} {md' : ℕ}
    (h : dfs P C depth out md = .done true out' md') :
    ∃ new, out' = out ++ new ∧ (∀ D ∈ new, Delivered P C D) ∧
      ∀ p, ¬ OnFacetPlane C.rays p → (∀ D ∈ new, ¬ OnFacetPlane (workRays P.mode D) p) →
        C.coefficient * ind (cone C.rays) p =
          (new.map fun D => D.coefficient * ind (cone (workRays P.mode D)) p).sum := by
  have := dfs_inv P hP _ C rfl hC depth out md
  rw [h] at this
  obtain ⟨new, h1, h2, -, h4⟩ := this
  refine ⟨new, h1, h2, fun p hp hpn => ?_⟩
  have hext := signedSum_extend [(C.coefficient, C.rays)] (entries P.mode new)
    (by simpa using hC.det_ne)
    (by
      intro c hc
      obtain ⟨D, hD, rfl⟩ := List.mem_map.mp hc
      exact workRays_det (h2 D hD))
    (by
      intro q hq
      have := h4 rfl q hq
      simp only at this
      rw [← this]
      simp [signedSum])
    p (by simpa using hp)
    (by
      intro c hc
      obtain ⟨D, hD, rfl⟩ := List.mem_map.mp hc
      exact hpn D hD)
  simpa [signedSum, entries, Function.comp_def] using hext

/-- **C18, primal decomposition.** When the recursion returns 1, the newly consumed cones form an
exact signed decomposition: at every point on no facet hyperplane of the input cone or of a
delivered cone, the signed sum of the indicators of the delivered cones is the indicator of the
input cone (times its coefficient). Intermediate cones need not be avoided. -/
theorem dfs_exact_primal {n : ℕ} [NeZero n] (P : Params n) (hP : P.ntl.Ok) (hm : P.mode = .primal)
    (C : Cone n) (hC : Wf C) (depth : ℕ) (out : List (Cone n)) (md : ℕ) {out' : List (Cone n)}
    {md' : ℕ} (h : dfs P C depth out md = .done true out' md') :
    ∃ new, out' = out ++ new ∧
      ∀ p, ¬ OnFacetPlane C.rays p → (∀ D ∈ new, ¬ OnFacetPlane D.rays p) →
        C.coefficient * ind (cone C.rays) p =
          (new.map fun D => D.coefficient * ind (cone D.rays) p).sum := by
  obtain ⟨new, h1, -, h3⟩ := dfs_identity P hP C hC depth out md h
  rw [hm] at h3
  exact ⟨new, h1, h3⟩

/-- **C18, dual decomposition.** Here the recursion decomposes the dual cone and delivers the duals
of the pieces: the signed sum of the indicators of the cones spanned by the facet normals of the
delivered cones is the indicator of the decomposed cone; and each delivered cone is the polar of
the piece it stands for. -/
theorem dfs_exact_dual {n : ℕ} [NeZero n] (P : Params n) (hP : P.ntl.Ok) (hm : P.mode = .dual)
    (C : Cone n) (hC : Wf C) (depth : ℕ) (out : List (Cone n)) (md : ℕ) {out' : List (Cone n)}
    {md' : ℕ} (h : dfs P C depth out md = .done true out' md') :
    ∃ new, out' = out ++ new ∧
      ∃ G : Cone n → Mat n, (∀ D ∈ new, D.facets = some (G D) ∧
        ∀ y, y ∈ cone D.rays ↔ ∀ x ∈ cone (G D), ∑ k, x k * y k ≤ 0) ∧
      ∀ p, ¬ OnFacetPlane C.rays p → (∀ D ∈ new, ¬ OnFacetPlane (G D) p) →
        C.coefficient * ind (cone C.rays) p =
          (new.map fun D => D.coefficient * ind (cone (G D)) p).sum := by
  obtain ⟨new, h1, h2, h3⟩ := dfs_identity P hP C hC depth out md h
  rw [hm] at h3
  refine ⟨new, h1, workRays .dual, fun D hD => ?_, h3⟩
  obtain ⟨F, hF, -, hFd, hdual⟩ := (h2 D hD).facets
  have hG : workRays .dual D = F := by simp [workRays, hF]
  refine ⟨by rw [hG, hF], fun y => ?_⟩
  rw [hG, mem_cone_iff D.rays F D.facetDivisors ((h2 D hD).det_eq ▸ (h2 D hD).det_ne)
    (h2 D hD).div_pos hdual]
  constructor
  · rintro hy x ⟨a, ha, rfl⟩
    have : ∑ k, comb F a k * y k = ∑ i, a i * dot (F i) y := by
      unfold comb dot
      simp only [Finset.sum_mul, Finset.mul_sum]
      rw [Finset.sum_comm]
      refine Finset.sum_congr rfl fun i _ => Finset.sum_congr rfl fun k _ => by ring
    rw [this]
    exact Finset.sum_nonpos fun i _ => mul_nonpos_of_nonneg_of_nonpos (ha i) (hy i)
  · intro hy j
    have hmem : comb F (Pi.single j 1) ∈ cone F := by
      refine ⟨_, fun i => ?_, rfl⟩
      by_cases hij : i = j
      · subst hij; simp
      · simp [hij]
    have := hy _ hmem
    have he : comb F (Pi.single j 1) = fun k => (F j k : ℝ) := by
      funext k
      unfold comb
      rw [Finset.sum_eq_single j]
      · simp
      · intro i _ hij; simp [hij]
      · simp
    rw [he] at this
    exact this

/-! ## Entry points -/

theorem matrixGCD_mul {n : ℕ} (B : Mat n) (i j : Fin n) :
    rowGcd (B i) * matrixGCD B i j = B i j := by
  unfold matrixGCD
  split
  · exact Int.mul_ediv_cancel' (rowGcd_dvd _ j)
  · rename_i h
    simp only [not_not] at h
    rw [h, mul_zero]

theorem rowGcd_ne {n : ℕ} (B : Mat n) (hB : B.det ≠ 0) (i : Fin n) : rowGcd (B i) ≠ 0 := by
  intro h0
  apply row_ne_zero B hB i
  funext j
  have := rowGcd_dvd (B i) j
  rw [h0] at this
  exact zero_dvd_iff.mp this

theorem matrixGCD_det {n : ℕ} (B : Mat n) (hB : B.det ≠ 0) : (matrixGCD B).det ≠ 0 := by
  have : B.det = (∏ i, rowGcd (B i)) * (matrixGCD B).det := by
    rw [← det_mul_column]
    congr 1
    ext i j
    exact (matrixGCD_mul B i j).symm
  intro h0
  rw [h0, mul_zero] at this
  exact hB this

/-- Dividing every ray by its gcd does not change the cone. -/
theorem matrixGCD_cone {n : ℕ} (B : Mat n) (hB : B.det ≠ 0) : cone (matrixGCD B) = cone B := by
  have hg : ∀ i, (0 : ℝ) < (rowGcd (B i) : ℝ) := fun i => by
    exact_mod_cast lt_of_le_of_ne (rowGcd_nonneg _) (Ne.symm (rowGcd_ne B hB i))
  have hm : ∀ i k, ((B i k : ℤ) : ℝ) = (rowGcd (B i) : ℝ) * (matrixGCD B i k : ℝ) := fun i k => by
    exact_mod_cast (matrixGCD_mul B i k).symm
  ext x
  constructor
  · rintro ⟨a, ha, rfl⟩
    refine ⟨fun i => a i / (rowGcd (B i) : ℝ), fun i => div_nonneg (ha i) (hg i).le, ?_⟩
    funext k
    unfold comb
    refine Finset.sum_congr rfl fun i _ => ?_
    rw [hm]
    have := (hg i).ne'
    field_simp
  · rintro ⟨a, ha, rfl⟩
    refine ⟨fun i => a i * (rowGcd (B i) : ℝ), fun i => mul_nonneg (ha i) (hg i).le, ?_⟩
    funext k
    unfold comb
    refine Finset.sum_congr rfl fun i _ => ?_
    rw [hm]
    ring

theorem matrixGCD_primitive {n : ℕ} (B : Mat n) (hB : B.det ≠ 0) (i : Fin n) (d : ℤ)
    (hd : ∀ j, d ∣ matrixGCD B i j) : IsUnit d := by
  have h := rowGcd_ne B hB i
  have : rowGcd (B i) * d ∣ rowGcd (B i) := by
    apply dvd_rowGcd
    intro j
    rw [← matrixGCD_mul B i j]
    exact mul_dvd_mul_left _ (hd j)
  obtain ⟨c, hc⟩ := this
  have h1 : d * c = 1 := by
    have : rowGcd (B i) * (d * c) = rowGcd (B i) * 1 := by rw [← mul_assoc, ← hc, mul_one]
    exact mul_left_cancel₀ h this
  exact IsUnit.of_mul_eq_one _ h1

theorem dvd_of_primitive {n : ℕ} (v : Vec n) (hv : ∀ e, (∀ k, e ∣ v k) → IsUnit e) (d m : ℤ)
    (h : ∀ k, d ∣ m * v k) : d ∣ m := by
  by_cases hd : d = 0
  · subst hd
    by_contra hm
    have hm' : m ≠ 0 := fun h => hm (h ▸ dvd_rfl)
    have : ∀ k, (0 : ℤ) ∣ v k := fun k => by
      have := zero_dvd_iff.mp (h k)
      exact zero_dvd_iff.mpr ((mul_eq_zero.mp this).resolve_left hm')
    exact not_isUnit_zero (hv 0 this)
  · obtain ⟨g, hg⟩ : ∃ g : ℤ, g = Int.gcd d m := ⟨_, rfl⟩
    have hgd : g ∣ d := hg ▸ Int.gcd_dvd_left ..
    have hgm : g ∣ m := hg ▸ Int.gcd_dvd_right ..
    obtain ⟨d', hd'⟩ := hgd
    obtain ⟨m', hm'⟩ := hgm
    have hg0 : g ≠ 0 := by rintro rfl; simp at hd'; exact hd hd'
    have hcop : IsCoprime d' m' := by
      have hb := Int.gcd_eq_gcd_ab d m
      rw [← hg, hd', hm'] at hb
      refine ⟨Int.gcdA d m, Int.gcdB d m, ?_⟩
      apply mul_left_cancel₀ hg0
      conv_rhs => rw [mul_one, hb]
      rw [← hd', ← hm']
      rw [mul_add]
      conv_rhs => rw [hd', hm']
      rw [← hd', ← hm']
      rw [mul_comm (Int.gcdA d m), mul_comm (Int.gcdB d m), ← mul_assoc, ← mul_assoc, ← hd', ← hm']
    have : ∀ k, d' ∣ v k := fun k => by
      have h1 := h k
      rw [hd', hm', mul_assoc] at h1
      exact hcop.dvd_of_dvd_mul_left ((mul_dvd_mul_iff_left hg0).mp h1)
    have hu := hv d' this
    rw [hd', hm']
    exact mul_dvd_mul_left g (hu.dvd)

/-- The cone on which the recursion is started has its facets in place, and is the given cone,
respectively (variant `irrationalPrimal`) its polar. -/
theorem start_wf {n : ℕ} (B : Mat n) (hB : B.det ≠ 0) (vertex : Fin n → ℚ) :
    let C : Cone n := ⟨1, vertex, matrixGCD B, B.det, none, 0, 0⟩
    (∃ D, computeDetAndFacets C = some D ∧ Wf D ∧ D.coefficient = 1 ∧ D.vertex = vertex ∧
      D.rays = matrixGCD B) ∧
    (∃ D, dualizeCone C = some D ∧ Wf D ∧ D.coefficient = 1 ∧ D.vertex = vertex ∧
      ∀ y, y ∈ cone D.rays ↔ ∀ x ∈ cone B, ∑ k, x k * y k ≤ 0) := by
  intro C
  have hd : C.rays.det ≠ 0 := matrixGCD_det B hB
  obtain ⟨F, d, h, hpos, hdual, hprim, hdvd⟩ := computeDetAndFacets_some C rfl hd
  refine ⟨⟨_, h, (wf_computeDetAndFacets h).1, rfl, rfl, rfl⟩, ?_⟩
  obtain ⟨D, E, hD, hDf, hDd, hDne, hDdd, hDdual, hpolar, -⟩ := dualize_correct C rfl hd
  have hDe : D = swapDual { C with
        determinant := C.rays.det, facets := some F, facetDivisors := d,
        dualDeterminant := F.det } F := by
    have : dualizeCone C = some (swapDual { C with
        determinant := C.rays.det, facets := some F, facetDivisors := d,
        dualDeterminant := F.det } F) := by
      unfold dualizeCone
      simp only [h]
      rfl
    rw [hD] at this
    exact Option.some.inj this
  refine ⟨D, hD, ⟨hDd, hDd ▸ hDne, ⟨_, hDf, hDdual, hDdd⟩, ?_, ?_⟩, ?_, ?_, ?_⟩
  · rw [hDe]; exact hpos
  · intro j
    apply dvd_of_primitive (C.rays j) (fun e he => matrixGCD_primitive B hB j e he)
    intro k
    have h1 : D.rays * C.rays.transpose = Matrix.diagonal fun i => -D.facetDivisors i := by
      ext i j
      rw [mul_apply, Matrix.diagonal_apply]
      simp only [transpose_apply, hDdual]
      by_cases hij : i = j
      · subst hij; simp
      · simp [hij]
    have h2 := congrArg (fun M => D.rays.adjugate * M) h1
    simp only [← Matrix.mul_assoc, adjugate_mul] at h2
    have h3 := congrFun (congrFun h2 k) j
    rw [Matrix.smul_mul, Matrix.one_mul, Matrix.smul_apply, transpose_apply, mul_diagonal,
      smul_eq_mul] at h3
    rw [hDd, h3]
    exact Dvd.intro_left (-D.rays.adjugate k j) (by ring)
  · rw [hDe]; rfl
  · rw [hDe]; rfl
  · intro y
    rw [hpolar]
    show (∀ x ∈ cone (matrixGCD B), _) ↔ _
    rw [matrixGCD_cone B hB]

/-- **C18, entry point.** For any non-singular ray matrix (whatever the gcds of its rows), a
successful run of `barvinok_Single` in the all-primal variant delivers an exact signed
decomposition of the cone of its rows. -/
theorem single_exact_allPrimal {n : ℕ} [NeZero n] (P : Params n) (hP : P.ntl.Ok)
    (hm : P.mode = .primal) (irr : Cone n → Fin n → ℚ) (B : Mat n) (vertex : Fin n → ℚ)
    (out : List (Cone n)) (md : ℕ) {out' : List (Cone n)} {md' : ℕ}
    (h : barvinokSingle P .irrationalAllPrimal irr B vertex out md = .done true out' md') :
    ∃ new, out' = out ++ new ∧ (∀ D ∈ new, D.vertex = vertex) ∧
      ∀ p, ¬ OnFacetPlane B p → (∀ D ∈ new, ¬ OnFacetPlane D.rays p) →
        ind (cone B) p = (new.map fun D => D.coefficient * ind (cone D.rays) p).sum := by
  unfold barvinokSingle at h
  split at h
  · cases h
  · rename_i hB
    obtain ⟨⟨D0, h0, hwf, hc, hv, hr⟩, -⟩ := start_wf B hB vertex
    simp only [h0] at h
    obtain ⟨new, h1, h2, h3⟩ := dfs_identity P hP D0 hwf _ _ _ h
    rw [hm] at h3
    refine ⟨new, h1, fun D hD => (h2 D hD).vertex.trans hv, fun p hp hpn => ?_⟩
    have := h3 p ?_ hpn
    · rw [hc, one_mul, hr, matrixGCD_cone B hB] at this
      exact this
    · rw [hr]
      rintro ⟨a, ⟨i, hi⟩, rfl⟩
      apply hp
      refine ⟨fun i => a i / (rowGcd (B i) : ℝ), ⟨i, by show a i / _ = 0; rw [hi, zero_div]⟩, ?_⟩
      funext k
      unfold comb
      refine Finset.sum_congr rfl fun i _ => ?_
      have hg : ((rowGcd (B i) : ℤ) : ℝ) ≠ 0 := by exact_mod_cast rowGcd_ne B hB i
      have hmm : ((B i k : ℤ) : ℝ) = (rowGcd (B i) : ℝ) * (matrixGCD B i k : ℝ) := by
        exact_mod_cast (matrixGCD_mul B i k).symm
      rw [hmm]
      field_simp

/-- **C18, entry point, primal decomposition of a cone given by its dual.** -/
theorem single_exact_irrationalPrimal {n : ℕ} [NeZero n] (P : Params n) (hP : P.ntl.Ok)
    (hm : P.mode = .primal) (irr : Cone n → Fin n → ℚ) (B : Mat n) (vertex : Fin n → ℚ)
    (out : List (Cone n)) (md : ℕ) {out' : List (Cone n)} {md' : ℕ}
    (h : barvinokSingle P .irrationalPrimal irr B vertex out md = .done true out' md') :
    ∃ A : Mat n, (∀ y, y ∈ cone A ↔ ∀ x ∈ cone B, ∑ k, x k * y k ≤ 0) ∧
    ∃ new, out' = out ++ new ∧
      ∀ p, ¬ OnFacetPlane A p → (∀ D ∈ new, ¬ OnFacetPlane D.rays p) →
        ind (cone A) p = (new.map fun D => D.coefficient * ind (cone D.rays) p).sum := by
  unfold barvinokSingle at h
  split at h
  · cases h
  · rename_i hB
    obtain ⟨-, D0, h0, hwf, hc, hv, hpol⟩ := start_wf B hB vertex
    simp only [h0] at h
    have hwf' : Wf { D0 with vertex := irr D0 } :=
      ⟨hwf.det_eq, hwf.det_ne, hwf.facets, hwf.div_pos, hwf.div_dvd⟩
    obtain ⟨new, h1, -, h3⟩ := dfs_identity P hP _ hwf' _ _ _ h
    rw [hm] at h3
    refine ⟨D0.rays, hpol, new, h1, fun p hp hpn => ?_⟩
    have := h3 p hp hpn
    simp only [hc, one_mul] at this
    exact this

/-! ## Lattice points of irrational cones -/

/-- The real point `z - v` for a lattice point `z` and a rational vertex `v`. -/
noncomputable def rel {n : ℕ} (z : Vec n) (v : Fin n → ℚ) : Fin n → ℝ :=
  fun k => (z k : ℝ) - ((v k : ℚ) : ℝ)

theorem rel_off_planes {n : ℕ} (D : Cone n) (hd : D.rays.det ≠ 0) (F : Mat n)
    (hF : D.facets = some F) (hpos : ∀ j, 0 < D.facetDivisors j)
    (hdual : ∀ i j, ∑ k, D.rays i k * F j k = if i = j then -D.facetDivisors j else 0)
    (hirr : isConeIrrational D) (z : Vec n) : ¬ OnFacetPlane D.rays (rel z D.vertex) := by
  rw [onFacetPlane_iff D.rays F D.facetDivisors hd hpos hdual]
  rintro ⟨j, hj⟩
  unfold isConeIrrational at hirr
  simp only [hF] at hirr
  apply hirr j
  have h1 : dot (F j) (rel z D.vertex) =
      ((∑ k, F j k * z k : ℤ) : ℝ) - ((∑ k, (F j k : ℚ) * D.vertex k : ℚ) : ℝ) := by
    unfold dot rel
    push_cast
    rw [← Finset.sum_sub_distrib]
    exact Finset.sum_congr rfl fun k _ => by ring
  rw [h1, sub_eq_zero] at hj
  have h2 : ((∑ k, F j k * z k : ℤ) : ℚ) = ∑ k, (F j k : ℚ) * D.vertex k := by
    exact_mod_cast hj
  rw [← h2]
  rfl

theorem dfs_irrational {n : ℕ} [NeZero n] (P : Params n) (hm : P.mode = .primal) (C : Cone n)
    (hC : Wf C) (depth : ℕ) (out : List (Cone n)) (md : ℕ) {ok : Bool} {out' : List (Cone n)}
    {md' : ℕ} (h : dfs P C depth out md = .done ok out' md') : isConeIrrational C := by
  by_contra hc
  rw [dfs] at h
  have h0 : criterion P.mode C ≠ 0 := by
    rw [hm]
    show |C.determinant| ≠ 0
    rw [abs_ne_zero, hC.det_eq]
    exact hC.det_ne
  rw [if_neg h0, if_pos ⟨hm, hc⟩] at h
  cases h

/-- **C18, lattice points.** In primal mode, when the recursion returns 1, the delivered cones
count every lattice point exactly: for every integer point `z` whatsoever, the signed number of
delivered (shifted) cones containing `z` is 1 or 0 according to whether the input cone, shifted to
its vertex, contains `z` (times the coefficient). -/
theorem dfs_lattice_exact {n : ℕ} [NeZero n] (P : Params n) (hP : P.ntl.Ok) (hm : P.mode = .primal)
    (C : Cone n) (hC : Wf C) (depth : ℕ) (out : List (Cone n)) (md : ℕ) {out' : List (Cone n)}
    {md' : ℕ} (h : dfs P C depth out md = .done true out' md') :
    ∃ new, out' = out ++ new ∧ ∀ z : Vec n,
      C.coefficient * ind (cone C.rays) (rel z C.vertex) =
        (new.map fun D => D.coefficient * ind (cone D.rays) (rel z D.vertex)).sum := by
  obtain ⟨new, h1, h2, h3⟩ := dfs_identity P hP C hC depth out md h
  rw [hm] at h3
  refine ⟨new, h1, fun z => ?_⟩
  have hirr := dfs_irrational P hm C hC depth out md h
  obtain ⟨F, hF, hdual, -⟩ := hC.facets
  rw [h3 (rel z C.vertex) (rel_off_planes C hC.det_ne F hF hC.div_pos hdual hirr z) ?_]
  · congr 1
    apply List.map_congr_left
    intro D hD
    rw [(h2 D hD).vertex]
    rfl
  · intro D hD
    obtain ⟨G, hG, -, -, hGd⟩ := (h2 D hD).facets
    rw [← (h2 D hD).vertex]
    exact rel_off_planes D ((h2 D hD).det_eq ▸ (h2 D hD).det_ne) G hG (h2 D hD).div_pos hGd
      ((h2 D hD).irrational hm) z

/-! ## Whole cones -/

/-- **C18, all simplices of a triangulation.** Decomposing the simplices one after another in the
all-primal variant delivers, when 1 is returned, an exact signed decomposition of the sum of their
indicators. -/
theorem decomposition_exact_allPrimal {n : ℕ} [NeZero n] (P : Params n) (hP : P.ntl.Ok)
    (hm : P.mode = .primal) (irr : Cone n → Fin n → ℚ) (vertex : Fin n → ℚ) (T : List (Mat n)) :
    ∀ (out : List (Cone n)) (md : ℕ) {out' : List (Cone n)} {md' : ℕ},
    barvinokDecompositionSingle P .irrationalAllPrimal irr vertex T out md = .done true out' md' →
    ∃ new, out' = out ++ new ∧
      ∀ p, (∀ B ∈ T, ¬ OnFacetPlane B p) → (∀ D ∈ new, ¬ OnFacetPlane D.rays p) →
        (T.map fun B => ind (cone B) p).sum =
          (new.map fun D => D.coefficient * ind (cone D.rays) p).sum := by
  induction T with
  | nil =>
    intro out md out' md' h
    unfold barvinokDecompositionSingle at h
    cases h
    exact ⟨[], by simp, fun p _ _ => rfl⟩
  | cons B T ih =>
    intro out md out' md' h
    unfold barvinokDecompositionSingle at h
    split at h
    · rename_i out1 md1 h1
      obtain ⟨new1, rfl, -, e1⟩ := single_exact_allPrimal P hP hm irr B vertex out md h1
      obtain ⟨new2, rfl, e2⟩ := ih _ _ h
      refine ⟨new1 ++ new2, by simp, fun p hp hpn => ?_⟩
      rw [List.map_cons, List.sum_cons, List.map_append, List.sum_append,
        e1 p (hp B (List.mem_cons_self ..)) (fun D hD => hpn D (List.mem_append_left _ hD)),
        e2 p (fun B hB => hp B (List.mem_cons_of_mem _ hB))
          (fun D hD => hpn D (List.mem_append_right _ hD))]
    · rename_i r hne
      exact absurd h (hne _ _)

/-! ## Non-vacuity -/

/-- A kernel vector of three plane vectors, explicitly. -/
def kernel2 (M : Fin 3 → Vec 2) : Fin 3 → ℤ :=
  let x (i j : Fin 3) : ℤ := M i 0 * M j 1 - M i 1 * M j 0
  if x 1 2 = 0 ∧ x 0 2 = 0 ∧ x 0 1 = 0 then
    if M 1 0 ≠ 0 then ![M 1 0, -M 0 0, 0]
    else if M 1 1 ≠ 0 then ![M 1 1, -M 0 1, 0]
    else ![0, 1, 0]
  else ![x 1 2, -x 0 2, x 0 1]

/-- An instance of NTL in dimension 2: `LLL` always returns the transformation (1,1),(0,1). -/
noncomputable def ntl2 : Ntl 2 where
  lll L := (!![1, 1; 0, 1] * L, !![1, 1; 0, 1])
  kernel := kernel2
  latticeSolve A b := by
    classical exact if h : ∃ x, Matrix.vecMul x A = b then h.choose else 0

/-- The contracts can be met. -/
theorem ntl2_ok : ntl2.Ok where
  lll_mul L := rfl
  lll_unimodular L := by
    show IsUnit (!![1, 1; 0, 1] : Matrix (Fin 2) (Fin 2) ℤ).det
    rw [det_fin_two]; decide
  kernel_ne M := by
    show kernel2 M ≠ 0
    unfold kernel2
    simp only
    split
    · split
      · rename_i h; intro h0; exact h (congrFun h0 0)
      · split
        · rename_i h; intro h0; exact h (congrFun h0 0)
        · intro h0; exact one_ne_zero (congrFun h0 1)
    · rename_i h
      intro h0
      apply h
      have a := congrFun h0 0
      have b := congrFun h0 1
      have c := congrFun h0 2
      simp at a b c
      exact ⟨a, by linarith, c⟩
  kernel_mul M := by
    show ∀ k, ∑ i, kernel2 M i * M i k = 0
    have key : ∀ k : Fin 2, k = 0 ∨ k = 1 := by decide
    intro k
    rw [Fin.sum_univ_three]
    unfold kernel2
    simp only
    split
    · rename_i h
      obtain ⟨h1, h2, h3⟩ := h
      split
      · rcases key k with rfl | rfl
        · simp; ring
        · simp; linarith
      · split
        · rename_i h4 h5
          rw [not_not] at h4
          rcases key k with rfl | rfl
          · simp; rw [h4] at h3 ⊢; simp at h3; rcases h3 with h3 | h3
            · rw [h3]; simp
            · exact absurd h3 h5
          · simp; ring
        · rename_i h4 h5
          rw [not_not] at h4 h5
          rcases key k with rfl | rfl
          · simpa using h4
          · simpa using h5
    · rcases key k with rfl | rfl <;> (simp; ring)
  solve A b h := by
    have : ntl2.latticeSolve A b = h.choose := by
      unfold ntl2
      simp only [dif_pos h]
    rw [this]
    exact h.choose_spec

/-- The cone with rays (1,0), (1,2) and vertex (1/3, 1/5). -/
def exCone : Cone 2 := ⟨1, ![1/3, 1/5], !![1, 0; 1, 2], 2, some !![-2, 1; 0, -1], ![2, 2], 2⟩

theorem exCone_wf : Wf exCone where
  det_eq := by decide +kernel
  det_ne := by decide +kernel
  facets := ⟨_, rfl, by decide +kernel, by decide +kernel⟩
  div_pos := by decide +kernel
  div_dvd := by decide +kernel

/-- Parameters of the example run: primal mode, unimodular cones, a consumer that never fails. -/
noncomputable def exParams : Params 2 := ⟨ntl2, .primal, 1, fun _ _ => true⟩

theorem dfs_leaf {n : ℕ} [NeZero n] (P : Params n) (C : Cone n) (depth : ℕ) (out : List (Cone n))
    (md : ℕ) (hm : P.mode = .primal) (hirr : isConeIrrational C) (h0 : |C.determinant| ≠ 0)
    (h1 : |C.determinant| ≤ P.maxDet) :
    dfs P C depth out md =
      .done (P.accept out C) (out ++ [C]) (if depth > md then depth else md) := by
  have hc : criterion P.mode C = |C.determinant| := by rw [hm]; rfl
  rw [dfs]
  simp only [hc]
  rw [if_neg h0, if_neg (fun h => h.2 hirr), if_pos (Or.inr h1)]
  unfold deliver
  rw [hm]

/-- The hypotheses of the theorems above are met by a complete run: the example cone is decomposed
into two unimodular cones and the recursion returns 1. -/
theorem exRun : ∃ c0 c1, dfs exParams exCone 0 [] 0 = .done true [c0, c1] 1 ∧
    c0.rays = !![1, 1; 1, 2] ∧ c1.rays = !![1, 0; 1, 1] := by
  have hs : ∃ Z, chooseOmega ntl2 exCone = some Z ∧ Z = ![1, 1] := by
    have : chooseOmega ntl2 exCone = some ![1, 1] := by decide +kernel
    exact ⟨_, this, rfl⟩
  obtain ⟨Z, hZ, rfl⟩ := hs
  have hstep : barvinokStep ntl2 exCone = some (![1, 1], childrenOf exCone ![1, 1]) := by
    unfold barvinokStep; rw [hZ]
  have hd0 : detsOf exCone.rays ![1, 1] 0 = 1 := by decide +kernel
  have hd1 : detsOf exCone.rays ![1, 1] 1 = 1 := by decide +kernel
  obtain ⟨c0, hc0, -, hr0, -, hdet0, -⟩ := childrenOf_some exCone ![1, 1] 0 (by rw [hd0]; decide)
  obtain ⟨c1, hc1, -, hr1, -, hdet1, -⟩ := childrenOf_some exCone ![1, 1] 1 (by rw [hd1]; decide)
  have hirr : ∀ i, ∀ c ∈ childrenOf exCone ![1, 1] i, isConeIrrational c := by decide +kernel
  have hi0 := hirr 0 c0 hc0
  have hi1 := hirr 1 c1 hc1
  rw [hd0] at hdet0
  rw [hd1] at hdet1
  refine ⟨c0, c1, ?_, ?_, ?_⟩
  · rw [dfs]
    rw [if_neg (by decide +kernel), if_neg (by decide +kernel), if_neg (by decide +kernel)]
    split
    · rename_i h
      have : barvinokStep exParams.ntl exCone = barvinokStep ntl2 exCone := rfl
      rw [this, hstep] at h; cases h
    · rename_i Z ch h
      have h' := h
      have : barvinokStep exParams.ntl exCone = barvinokStep ntl2 exCone := rfl
      rw [this, hstep] at h'
      cases h'
      rw [if_neg (fun hh => hh.2 hirr)]
      have hord : order (detsOf exCone.rays ![1, 1]) = [0, 1] := by decide +kernel
      rw [hord, loop]
      split
      · rename_i hn; rw [hc0] at hn; cases hn
      · rename_i c hc
        rw [hc0] at hc; cases hc
        rw [dfs_leaf exParams c0 _ _ _ rfl hi0 (by rw [hdet0]; decide)
          (by rw [hdet0]; decide)]
        show loop _ _ _ _ _ _ _ _ = _
        rw [loop]
        split
        · rename_i hn; rw [hc1] at hn; cases hn
        · rename_i c hc
          rw [hc1] at hc; cases hc
          rw [dfs_leaf exParams c1 _ _ _ rfl hi1 (by rw [hdet1]; decide)
            (by rw [hdet1]; decide)]
          show loop _ _ _ _ _ _ _ _ = _
          rw [loop]
          rfl
  · rw [hr0]; decide +kernel
  · rw [hr1]; decide +kernel

end Verif.Barvinok
