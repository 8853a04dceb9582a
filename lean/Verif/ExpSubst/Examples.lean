import Verif.ExpSubst.Ehrhart

/-!
# The hypotheses of C20, C42 and C44 on an example

The segment `[0, 3/2]`, with the lattice points 0 and 1: two vertex cones, whose indicators add up to
that of the segment plus the constant 1, a function with a line. For the Ehrhart polynomial the
segment `[0, 1]`, dilated.
-/

namespace Verif.ExpSubst.Examples

open Verif.Barvinok (Cone Mat Vec rel Ntl Variant Params Outcome polar)
open Verif.Barvinok.Spec

/-- The cone `{x ≥ 0}`. -/
def left : Cone 1 := ⟨1, ![0], !![1], 1, some !![-1], ![1], -1⟩

/-- The cone `{x ≤ e}`. -/
def right (e : ℚ) : Cone 1 := ⟨1, ![e], !![-1], -1, some !![1], ![1], 1⟩

theorem left_ready : Ready 2 left where
  facets := ⟨!![-1], rfl, by decide +kernel, by decide +kernel, by decide +kernel,
    by decide +kernel, by decide +kernel, vertexScale_ne _⟩
  small := by decide
  fuel := by decide +kernel

theorem right_ready (e : ℚ) : Ready 2 (right e) where
  facets := ⟨!![1], rfl, by show (-1 : ℤ) = (!![-1] : Mat 1).det; decide +kernel,
    by show (!![-1] : Mat 1).det ≠ 0; decide +kernel,
    by show ∀ i j, ∑ k, (!![-1] : Mat 1) i k * (!![1] : Mat 1) j k =
        if i = j then -(![1] : Vec 1) j else 0
       decide +kernel,
    by show ∀ j, (0 : ℤ) < (![1] : Vec 1) j; decide +kernel,
    by show ∀ j, (![1] : Vec 1) j ∣ (-1 : ℤ); decide +kernel, vertexScale_ne _⟩
  small := by show |(-1 : ℤ)| ≤ Piped.intMax; decide
  fuel := by show |(!![-1] : Mat 1).det| < 2; decide +kernel

theorem mem_cone_one (a : ℤ) (y : Fin 1 → ℝ) :
    y ∈ cone (!![a] : Mat 1) ↔ ∃ t : ℝ, 0 ≤ t ∧ y 0 = t * a := by
  constructor
  · rintro ⟨t, ht, rfl⟩
    exact ⟨t 0, ht 0, by simp [comb]⟩
  · rintro ⟨t, ht, h⟩
    refine ⟨fun _ => t, fun _ => ht, ?_⟩
    funext k
    have : k = 0 := Subsingleton.elim _ _
    subst this
    simp [comb, h]

theorem mem_left (y : Fin 1 → ℝ) : y ∈ cone (!![1] : Mat 1) ↔ 0 ≤ y 0 := by
  rw [mem_cone_one]
  constructor
  · rintro ⟨t, ht, h⟩; rw [h]; simpa using ht
  · intro h; exact ⟨y 0, h, by simp⟩

theorem mem_right (y : Fin 1 → ℝ) : y ∈ cone (!![-1] : Mat 1) ↔ y 0 ≤ 0 := by
  rw [mem_cone_one]
  constructor
  · rintro ⟨t, ht, h⟩; rw [h]; push_cast; linarith
  · intro h; exact ⟨-y 0, by linarith, by simp⟩

/-- The lattice points `0, …, n - 1` of the line. -/
def points (n : ℕ) : List (Vec 1) := (List.range n).map fun i : ℕ => ![(i : ℤ)]

theorem points_nodup (n : ℕ) : (points n).Nodup := by
  unfold points
  refine List.nodup_range.map fun a b h => ?_
  have := congrFun h 0
  simpa using this

theorem mem_points (n : ℕ) (z : Vec 1) : z ∈ points n ↔ 0 ≤ z 0 ∧ z 0 < n := by
  unfold points
  rw [List.mem_map]
  constructor
  · rintro ⟨i, hi, rfl⟩
    rw [List.mem_range] at hi
    simpa using hi
  · rintro ⟨h1, h2⟩
    refine ⟨(z 0).toNat, ?_, ?_⟩
    · rw [List.mem_range]; omega
    · funext k
      have : k = 0 := Subsingleton.elim _ _
      subst this
      simpa using h1

theorem one_negligible : (fun _ => (1 : ℚ)) ∈ negligible 1 := by
  apply Submodule.subset_span
  refine ⟨![1], ?_, fun p => rfl⟩
  intro h
  have := congrFun h 0
  simp at this

/-- Brion's identity for the segment `[0, e]` with `n` lattice points. -/
theorem brion (n : ℕ) (e : ℚ) (h1 : (n : ℚ) - 1 ≤ e) (h2 : e < n) (z : Vec 1) :
    ((ind (cone (!![1] : Mat 1)) (rel z ![0]) + ind (cone (!![-1] : Mat 1)) (rel z ![e]) : ℤ) : ℚ) =
      (if z ∈ points n then 1 else 0) + 1 := by
  unfold ind
  have c1 : rel z ![0] ∈ cone (!![1] : Mat 1) ↔ 0 ≤ z 0 := by
    rw [mem_left]
    unfold rel
    simp
  have c2 : rel z ![e] ∈ cone (!![-1] : Mat 1) ↔ z 0 < n := by
    rw [mem_right]
    unfold rel
    simp only [Matrix.cons_val_zero]
    have : (((z 0 : ℤ) : ℝ) - (e : ℝ) ≤ 0) ↔ ((z 0 : ℤ) : ℚ) ≤ e := by
      rw [sub_nonpos]
      exact_mod_cast Iff.rfl
    rw [this]
    constructor
    · intro h
      have : ((z 0 : ℤ) : ℚ) < ((n : ℤ) : ℚ) := lt_of_le_of_lt h (by exact_mod_cast h2)
      exact_mod_cast this
    · intro h
      have : z 0 ≤ (n : ℤ) - 1 := by omega
      have : ((z 0 : ℤ) : ℚ) ≤ (((n : ℤ) - 1 : ℤ) : ℚ) := by exact_mod_cast this
      push_cast at this
      linarith
  have c3 := mem_points n z
  have hn : 0 ≤ (n : ℤ) := Int.natCast_nonneg n
  by_cases a : 0 ≤ z 0
  · by_cases b : z 0 < n
    · rw [if_pos (c1.mpr a), if_pos (c2.mpr b), if_pos (c3.mpr ⟨a, b⟩)]; norm_num
    · rw [if_pos (c1.mpr a), if_neg (fun h => b (c2.mp h)), if_neg (fun h => b (c3.mp h).2)]; norm_num
  · have b : z 0 < n := by omega
    rw [if_neg (fun h => a (c1.mp h)), if_pos (c2.mpr b), if_neg (fun h => a (c3.mp h).1)]; norm_num

/-- C20 on the segment `[0, 3/2]`: two points. -/
example (X : Smith.Xgcd) : residueSum X ![5] 2 [left, right (3/2)] 0 = .ok 2 :=
  c20_residues_count X ![5] 2 [left, right (3/2)]
    (by simp [left_ready, right_ready])
    (by
      intro C hC
      simp only [List.mem_cons, List.not_mem_nil, or_false] at hC
      rcases hC with rfl | rfl
      · decide +kernel
      · intro i; fin_cases i; simp [right])
    (points 2) (points_nodup 2) _ one_negligible
    (fun z => by
      have := brion 2 (3/2) (by norm_num) (by norm_num) z
      rw [← this]
      simp [left, right])

/-- C20, C42: the first vector is rejected, the second gives the answer. -/
example (X : Smith.Xgcd) :
    computeResidue X 2 [left, right (3/2)] 5 (fun i : ℕ => ![(i : ℤ)]) = .ok 2 :=
  c20_compute X 2 [left, right (3/2)]
    (by simp [left_ready, right_ready])
    (points 2) (points_nodup 2) _ one_negligible
    (fun z => by
      have := brion 2 (3/2) (by norm_num) (by norm_num) z
      rw [← this]
      simp [left, right])
    1 _
    (by
      intro s hs
      have : s = 0 := by omega
      subst this
      exact ⟨left, by simp, 0, by decide +kernel⟩)
    (by
      intro C hC
      simp only [List.mem_cons, List.not_mem_nil, or_false] at hC
      rcases hC with rfl | rfl
      · decide +kernel
      · intro i; fin_cases i; simp [right])
    5 (by omega)

/-- C44 on the segment `[0, 1]`: for every dilation the hypothesis is met with `N + 1` points, so the
computed polynomial is `N + 1`. -/
example (X : Smith.Xgcd) : ∃ coeffs : ℕ → ℚ,
    ehrhartSum X ![5] 2 [(left, ![0]), (right 0, ![1])] (fun _ => 0) = .ok coeffs ∧
    ∀ N : ℕ, coeffs 0 + coeffs 1 * N = N + 1 := by
  obtain ⟨coeffs, h1, h2⟩ := c44_ehrhart X ![5] 2 [(left, ![0]), (right 0, ![1])]
    (by simp [left_ready, right_ready])
    (by
      intro C hC
      simp only [List.mem_cons, List.not_mem_nil, or_false] at hC
      rcases hC with rfl | rfl
      · decide +kernel
      · intro i; fin_cases i; simp [right])
  refine ⟨coeffs, h1, fun N => ?_⟩
  have := h2 N (points (N + 1)) (points_nodup _) _ one_negligible (fun z => by
    have := brion (N + 1) N (by push_cast; linarith) (by push_cast; linarith) z
    rw [← this]
    have e1 : (fun k => left.vertex k + ((N : ℤ) : ℚ) * ((![0] : Vec 1) k : ℤ)) = ![0] := by
      funext k; fin_cases k; simp [left]
    have e2 : (fun k => (right 0).vertex k + ((N : ℤ) : ℚ) * ((![1] : Vec 1) k : ℤ)) = ![(N : ℚ)] := by
      funext k; fin_cases k; simp [right]
    simp only [List.map_cons, List.map_nil, List.sum_cons, List.sum_nil, add_zero]
    rw [e1, e2]
    simp [left, right])
  rw [Finset.sum_range_succ, Finset.sum_range_one] at this
  simpa [points] using this

/-! ## The whole program -/

/-- An instance of NTL in dimension 1. -/
noncomputable def ntl1 : Ntl 1 where
  lll L := (L, 1)
  kernel M := if M 1 0 = 0 then ![0, 1] else ![M 1 0, -M 0 0]
  latticeSolve A b := by
    classical exact if h : ∃ x, Matrix.vecMul x A = b then h.choose else 0

theorem ntl1_ok : ntl1.Ok where
  lll_mul L := by show L = 1 * L; rw [Matrix.one_mul]
  lll_unimodular L := by show IsUnit (1 : Mat 1).det; rw [Matrix.det_one]; exact isUnit_one
  kernel_ne M := by
    show (if M 1 0 = 0 then ![0, 1] else ![M 1 0, -M 0 0] : Fin 2 → ℤ) ≠ 0
    split
    · intro h; exact one_ne_zero (congrFun h 1)
    · rename_i h; intro h'; exact h (congrFun h' 0)
  kernel_mul M := by
    show ∀ k, ∑ i, (if M 1 0 = 0 then ![0, 1] else ![M 1 0, -M 0 0] : Fin 2 → ℤ) i * M i k = 0
    intro k
    have : k = 0 := Subsingleton.elim _ _
    subst this
    rw [Fin.sum_univ_two]
    split
    · rename_i h; simp [h]
    · simp; ring
  solve A b h := by
    have : ntl1.latticeSolve A b = h.choose := by
      unfold ntl1
      simp only [dif_pos h]
    rw [this]
    exact h.choose_spec

theorem mem_polar_one (a : ℤ) (y : Fin 1 → ℝ) : y ∈ polar (!![a] : Mat 1) ↔ (a : ℝ) * y 0 ≤ 0 := by
  rw [Barvinok.mem_polar]
  unfold dot
  simp

/-- The input: the segment `[0, 3/2]` as two vertices with their polar cones. -/
def input : List ((Fin 1 → ℚ) × List (Mat 1)) := [(![0], [!![-1]]), (![3/2], [!![1]])]

theorem input_ind (z : Vec 1) :
    (((input.map fun c => (c.2.map fun B => inputInd .dual c.1 B z).sum).sum : ℤ) : ℚ) =
      (if z ∈ points 2 then 1 else 0) + 1 := by
  rw [← brion 2 (3/2) (by norm_num) (by norm_num) z]
  have p1 : polar (!![-1] : Mat 1) = cone (!![1] : Mat 1) := by
    ext y; rw [mem_polar_one, mem_left]; push_cast; constructor <;> intro h <;> linarith
  have p2 : polar (!![1] : Mat 1) = cone (!![-1] : Mat 1) := by
    ext y; rw [mem_polar_one, mem_right]; push_cast; constructor <;> intro h <;> linarith
  simp [input, inputInd, p1, p2]

/-- C20, C42 for the whole run: if it returns a number at all, it is 2. -/
example (X : Smith.Xgcd) (guesses : ℕ → Vec 1) (tries : ℕ) (r : ℤ)
    (h : decomposeAndCount ntl1 X .dual (fun C => C.vertex) 1 2 input tries guesses = .ok r) :
    r = 2 :=
  c42_restart ntl1 ntl1_ok X .dual _ (fun h => by cases h) 1 (by decide) (by decide) 2 (by decide)
    input (points 2) (points_nodup 2) _ one_negligible input_ind tries guesses r h

theorem cone_ext (C D : Cone 1) (h1 : C.coefficient = D.coefficient) (h2 : C.vertex 0 = D.vertex 0)
    (h3 : C.rays 0 0 = D.rays 0 0) (h4 : C.determinant = D.determinant)
    (h5 : C.facets.map (fun F => F 0 0) = D.facets.map fun F => F 0 0)
    (h6 : C.facetDivisors 0 = D.facetDivisors 0) (h7 : C.dualDeterminant = D.dualDeterminant) :
    C = D := by
  have e2 : C.vertex = D.vertex := by funext k; fin_cases k; exact h2
  have e3 : C.rays = D.rays := by funext k l; fin_cases k; fin_cases l; exact h3
  have e6 : C.facetDivisors = D.facetDivisors := by funext k; fin_cases k; exact h6
  have e5 : C.facets = D.facets := by
    cases hc : C.facets with
    | none => cases hd : D.facets with
      | none => rfl
      | some G => rw [hc, hd] at h5; cases h5
    | some F => cases hd : D.facets with
      | none => rw [hc, hd] at h5; cases h5
      | some G =>
        rw [hc, hd] at h5
        simp only [Option.map_some, Option.some.injEq] at h5
        congr 1
        funext k l; fin_cases k; fin_cases l; exact h5
  cases C; cases D; simp_all

theorem facets_of (C D : Cone 1) (h0 : (Barvinok.computeDetAndFacets C).isSome = true)
    (h : ∀ E, Barvinok.computeDetAndFacets C = some E → E = D) :
    Barvinok.computeDetAndFacets C = some D := by
  cases hE : Barvinok.computeDetAndFacets C with
  | none => rw [hE] at h0; cases h0
  | some E => rw [h E hE]

/-- A unimodular cone is delivered at once, dualized. -/
theorem single_leaf (P : Params 1) (hm : P.mode = .dual) (hd : P.maxDet = 1) (B : Mat 1)
    (v : Fin 1 → ℚ) (out : List (Cone 1)) (md : ℕ) (C D : Cone 1) (hB : B.det ≠ 0)
    (hC : Barvinok.computeDetAndFacets ⟨1, v, Barvinok.matrixGCD B, B.det, none, 0, 0⟩ = some C)
    (h1 : |C.dualDeterminant| = 1) (hD : Barvinok.dualizeCone C = some D)
    (b : Bool) (hacc : P.accept out D = b) :
    Barvinok.barvinokSingle P .dual (fun C => C.vertex) B v out md = .done b (out ++ [D]) md := by
  unfold Barvinok.barvinokSingle
  rw [if_neg hB]
  simp only [hC]
  rw [Barvinok.dfs]
  have e1 : Barvinok.criterion P.mode C = 1 := by rw [hm]; exact h1
  rw [e1]
  simp only [hm, hd]
  rw [if_neg (by decide), if_neg (fun h => by cases h.1), if_pos (Or.inr le_rfl)]
  unfold Barvinok.deliver
  rw [hm]
  simp only [hD, hacc]
  simp

/-- The first vector is rejected, with the second the run ends with the right number. -/
example (X : Smith.Xgcd) :
    decomposeAndCount ntl1 X .dual (fun C => C.vertex) 1 2 input 5 (fun i : ℕ => ![(i : ℤ)]) =
      .ok 2 := by
  have acc : ∀ C : Cone 1, Ready 2 C → (∀ i, ip ![1] (C.rays i) ≠ 0) →
      acceptExp X ![1] 2 C = true := by
    intro C hC hg
    obtain ⟨pts, -, h⟩ := residueSingle_ok X ![1] 2 C hC hg
    unfold acceptExp
    rw [h]
  have rej : ∀ C : Cone 1, acceptExp X ![0] 2 C = false := by
    intro C
    have : ip ![0] (C.rays 0) = 0 := by simp [ip]
    unfold acceptExp residueSingle
    rw [residueWeights_notGeneric ![0] C.rays 0 this]
    rfl
  have d1 : Barvinok.computeDetAndFacets (⟨1, ![0], Barvinok.matrixGCD !![-1], (!![-1] : Mat 1).det,
      none, 0, 0⟩ : Cone 1) = some ⟨1, ![0], !![-1], -1, some !![1], ![1], 1⟩ := by
    refine facets_of _ _ (by decide +kernel) fun E hE => ?_
    have key := Option.some.inj ((Option.some_get (by decide +kernel)).trans hE)
    rw [← key]
    exact cone_ext _ _ (by decide +kernel) (by decide +kernel) (by decide +kernel)
      (by decide +kernel) (by decide +kernel) (by decide +kernel) (by decide +kernel)
  have d2 : Barvinok.computeDetAndFacets (⟨1, ![3/2], Barvinok.matrixGCD !![1], (!![1] : Mat 1).det,
      none, 0, 0⟩ : Cone 1) = some ⟨1, ![3/2], !![1], 1, some !![-1], ![1], -1⟩ := by
    refine facets_of _ _ (by decide +kernel) fun E hE => ?_
    have key := Option.some.inj ((Option.some_get (by decide +kernel)).trans hE)
    rw [← key]
    exact cone_ext _ _ (by decide +kernel) (by decide +kernel) (by decide +kernel)
      (by decide +kernel) (by decide +kernel) (by decide +kernel) (by decide +kernel)
  have s1 : ∀ (P : Params 1), P.mode = .dual → P.maxDet = 1 → ∀ out md b, P.accept out left = b →
      Barvinok.barvinokSingle P .dual (fun C => C.vertex) !![-1] ![0] out md =
        .done b (out ++ [left]) md := fun P hm hd out md b hb =>
    single_leaf P hm hd !![-1] ![0] out md _ left (by decide +kernel) d1 (by decide) rfl b hb
  have s2 : ∀ (P : Params 1), P.mode = .dual → P.maxDet = 1 → ∀ out md b,
      P.accept out (right (3/2)) = b →
      Barvinok.barvinokSingle P .dual (fun C => C.vertex) !![1] ![3/2] out md =
        .done b (out ++ [right (3/2)]) md := fun P hm hd out md b hb =>
    single_leaf P hm hd !![1] ![3/2] out md _ (right (3/2)) (by decide +kernel) d2 (by decide) rfl b hb
  have hbad : countOnce ntl1 X .dual (fun C => C.vertex) 1 2 input ![0] = .error .notGeneric := by
    have h : decompositionList (expParams ntl1 X .dual 1 2 ![0]) .dual
        (fun C => C.vertex) input [] 0 = .done false [left] 0 := by
      unfold input decompositionList Barvinok.barvinokDecompositionSingle
      rw [s1 (expParams ntl1 X .dual 1 2 ![0]) rfl rfl _ _ false (rej left)]
      rfl
    unfold countOnce
    have : decompositionList ⟨ntl1, Variant.dual.mode, 1, fun _ C => acceptExp X ![0] 2 C⟩ .dual
        (fun C => C.vertex) input [] 0 = .done false [left] 0 := h
    rw [this]
  have hgood : ∃ out md, decompositionList (expParams ntl1 X .dual 1 2 ![1]) .dual
      (fun C => C.vertex) input [] 0 = .done true out md := by
    unfold input decompositionList Barvinok.barvinokDecompositionSingle
    rw [s1 (expParams ntl1 X .dual 1 2 ![1]) rfl rfl _ _ true
      (acc _ left_ready (by decide +kernel))]
    simp only [Barvinok.barvinokDecompositionSingle, decompositionList]
    rw [s2 (expParams ntl1 X .dual 1 2 ![1]) rfl rfl _ _ true
      (acc _ (right_ready _) (by intro i; fin_cases i; simp [right, ip]))]
    exact ⟨_, _, rfl⟩
  obtain ⟨out, md, hgood⟩ := hgood
  have hfirst := c42_first_generic ntl1 X .dual (fun C => C.vertex) 1 2 input 1
    (fun i : ℕ => ![(i : ℤ)]) (fun s hs => by
      have : s = 0 := by omega
      subst this
      exact hbad) 4
  rw [show 5 = 1 + 4 from rfl, hfirst]
  unfold decomposeAndCount
  rcases c20_count ntl1 ntl1_ok X .dual (fun C => C.vertex) (fun h => by cases h) 1 (by decide)
    (by decide) 2 (by decide) input (points 2) (points_nodup 2) _ one_negligible input_ind ![1] with
    ⟨e, he, -⟩ | hok
  · exfalso
    have hc : countOnce ntl1 X .dual (fun C => C.vertex) 1 2 input ![1] =
        residueSum X ![1] 2 out 0 := by
      unfold countOnce
      have : decompositionList ⟨ntl1, Variant.dual.mode, 1, fun _ C => acceptExp X ![1] 2 C⟩ .dual
        (fun C => C.vertex) input [] 0 = .done true out md := hgood
      rw [this]
    obtain ⟨new, e1, hg⟩ := decompositionList_good ntl1 ntl1_ok X .dual (fun C => C.vertex)
      (fun h => by cases h) 1 (by decide) (by decide) 2 (by decide) ![1] input [] 0 hgood
    rw [List.nil_append] at e1
    subst e1
    classical
    have := residueSum_ok X ![1] 2 out (fun C => if h : C ∈ out then
      (C.coefficient : ℚ) * PowerSeries.coeff 1 (phi ![1] (gf (residueSingle_ok X ![1] 2 C
        (hg.ready C h) (hg.generic C h)).choose) * coneSeries ![1] C.rays) else 0)
      (fun C hC => by
        rw [dif_pos hC]
        exact (residueSingle_ok X ![1] 2 C (hg.ready C hC) (hg.generic C hC)).choose_spec.2) 0
    rw [hc, this] at he
    cases he
  · have : (fun i : ℕ => (![((1 + i : ℕ) : ℤ)] : Vec 1)) 0 = ![1] := by simp
    rw [this, hok]
    rfl

end Verif.ExpSubst.Examples
