import Verif.Irrational.Props
import Mathlib.Data.Nat.Factorial.Basic

/-!
# C64: the moved vertex stays irrational in the recursion; end-to-end exactness at lattice points
-/

namespace Verif.Irrational

open Verif.Barvinok Verif.Barvinok.Spec

variable {n : ℕ}

/-- Specification: a cone is not decomposed further. -/
def Leaf (P : Params n) (D : Cone n) : Prop := P.maxDet = 0 ∨ |D.determinant| ≤ P.maxDet

/-- Specification: `Reach P C t D`: the primal recursion started on `C` meets `D` at depth `t`. -/
inductive Reach [NeZero n] (P : Params n) : Cone n → ℕ → Cone n → Prop
  | refl (C) : Reach P C 0 C
  | step {C c D : Cone n} {Z : Vec n} {ch : Fin n → Option (Cone n)} {i : Fin n} {t : ℕ} :
      ¬ Leaf P C → barvinokStep P.ntl C = some (Z, ch) → ch i = some c → Reach P c t D → Reach P C (t + 1) D

/-! ### Sizes -/

theorem maxCoord_foldl (l : List (Fin n)) (r : Vec n) (m : ℤ) :
    m ≤ l.foldl (fun (m : ℤ) i => if |r i| > m then |r i| else m) m ∧
      ∀ i ∈ l, |r i| ≤ l.foldl (fun (m : ℤ) i => if |r i| > m then |r i| else m) m := by
  induction l generalizing m with
  | nil => simp
  | cons a l ih =>
    obtain ⟨h1, h2⟩ := ih (if |r a| > m then |r a| else m)
    rw [List.foldl_cons]
    refine ⟨le_trans (by split_ifs <;> omega) h1, ?_⟩
    intro i hi
    rcases List.mem_cons.1 hi with rfl | hi
    · exact le_trans (by split_ifs <;> omega) h1
    · exact h2 i hi

theorem maxCoord_aux (rays : List (Vec n)) (m : ℤ) :
    m ≤ rays.foldl (fun m r => (List.finRange n).foldl (fun (m : ℤ) i => if |r i| > m then |r i| else m) m) m ∧
      ∀ r ∈ rays, ∀ i, |r i| ≤
        rays.foldl (fun m r => (List.finRange n).foldl (fun (m : ℤ) i => if |r i| > m then |r i| else m) m) m := by
  induction rays generalizing m with
  | nil => simp
  | cons a l ih =>
    rw [List.foldl_cons]
    obtain ⟨h1, h2⟩ := ih ((List.finRange n).foldl (fun (m : ℤ) i => if |a i| > m then |a i| else m) m)
    obtain ⟨g1, g2⟩ := maxCoord_foldl (List.finRange n) a m
    refine ⟨g1.trans h1, ?_⟩
    intro r hr i
    rcases List.mem_cons.1 hr with rfl | hr
    · exact (g2 i (List.mem_finRange i)).trans h1
    · exact h2 r hr i

theorem maxCoord_nonneg (rays : List (Vec n)) : 0 ≤ maxCoord rays := (maxCoord_aux rays 0).1

theorem le_maxCoord (rays : List (Vec n)) (r : Vec n) (hr : r ∈ rays) (i : Fin n) : |r i| ≤ maxCoord rays :=
  (maxCoord_aux rays 0).2 r hr i

theorem adjugate_bound (A : Mat n) (B : ℤ) (hA : ∀ i k, |A i k| ≤ B) (i k : Fin n) :
    |A.adjugate i k| ≤ (n * B) ^ (n - 1) := by
  rcases n with _ | n
  · exact i.elim0
  have hB : 0 ≤ B := le_trans (abs_nonneg _) (hA i i)
  rw [Matrix.adjugate_fin_succ_eq_det_submatrix, abs_mul, abs_pow, abs_neg, abs_one, one_pow, one_mul]
  have h := Matrix.det_le (A := A.submatrix k.succAbove i.succAbove) (abv := AbsoluteValue.abs) (x := B)
    (fun a b => hA _ _)
  simp only [AbsoluteValue.abs_apply, Fintype.card_fin, nsmul_eq_mul] at h
  refine h.trans ?_
  rw [mul_pow, Nat.add_sub_cancel]
  refine mul_le_mul_of_nonneg_right ?_ (pow_nonneg hB _)
  have h1 : n.factorial ≤ (n + 1) ^ n := (Nat.factorial_le_pow n).trans (Nat.pow_le_pow_left (by omega) n)
  exact_mod_cast h1

/-- Primitive facets with entries bounded by `X`. -/
def SmallFacets (D : Cone n) (X : ℤ) : Prop := ∃ F, D.facets = some F ∧ ∀ j, Primitive (F j) ∧ ∀ k, |F j k| ≤ X

theorem facets_small (C D : Cone n) (h : computeDetAndFacets C = some D) (B : ℤ) (hB : ∀ i k, |C.rays i k| ≤ B) :
    SmallFacets D ((n * B) ^ (n - 1)) := by
  unfold computeDetAndFacets at h
  split at h
  · cases h
  · split at h
    · cases h
    · rename_i hf hd
      simp only at h
      split at h
      · cases h
        refine ⟨_, rfl, fun j => ⟨fun e he => reduceRow_primitive _ (signedInverse_gcd_ne C.rays hd j) e he, fun k => ?_⟩⟩
        have hmul := reduceRow_mul (signedInverse C.rays j) (signedInverse_gcd_ne C.rays hd j) k
        have hg : 1 ≤ rowGcd (signedInverse C.rays j) := by
          have h1 := rowGcd_nonneg (signedInverse C.rays j)
          have h2 := signedInverse_gcd_ne C.rays hd j
          omega
        have hle : |reduceRow (signedInverse C.rays j) k| ≤ |signedInverse C.rays j k| := by
          rw [← hmul, abs_mul, abs_of_pos (by omega : 0 < rowGcd (signedInverse C.rays j))]
          nlinarith [abs_nonneg (reduceRow (signedInverse C.rays j) k)]
        refine hle.trans ?_
        have hab := adjugate_bound C.rays B hB k j
        unfold signedInverse
        rw [Matrix.neg_apply, abs_neg, Matrix.transpose_apply]
        split_ifs
        · rw [Matrix.neg_apply, abs_neg]; exact hab
        · exact hab
      · cases h

theorem child_rays_bound (C : Cone n) (hC : Wf C) (Z : Vec n) (hdec : ∀ i, |detsOf C.rays Z i| < |C.determinant|) (B : ℤ)
    (hB : ∀ i k, |C.rays i k| ≤ B) (k : Fin n) : |Z k| ≤ n * B := by
  have hD : 0 < |C.rays.det| := abs_pos.2 hC.det_ne
  have h := congrArg abs (cramer_rows C.rays Z k)
  rw [abs_mul] at h
  have h2 : |∑ i, detsOf C.rays Z i * C.rays i k| ≤ ∑ _i : Fin n, |C.rays.det| * B := by
    refine (Finset.abs_sum_le_sum_abs _ _).trans (Finset.sum_le_sum fun i _ => ?_)
    rw [abs_mul]
    have := hdec i
    rw [hC.det_eq] at this
    exact mul_le_mul this.le (hB i k) (abs_nonneg _) hD.le
  rw [h, Finset.sum_const, Finset.card_univ, Fintype.card_fin, nsmul_eq_mul] at h2
  have : |C.rays.det| * |Z k| ≤ |C.rays.det| * (n * B) := by linarith
  exact le_of_mul_le_mul_left this hD

theorem childrenOf_eq {C c : Cone n} {Z : Vec n} {i : Fin n} (h : childrenOf C Z i = some c) :
    computeDetAndFacets (childCone C Z i) = some c := by
  unfold childrenOf at h
  split at h
  · cases h
  · exact h

/-- What is known of a child. -/
theorem child_spec [NeZero n] (P : Params n) (hP : P.ntl.Ok) {C c : Cone n} (hC : Wf C) {Z : Vec n}
    {ch : Fin n → Option (Cone n)} {i : Fin n} (hs : barvinokStep P.ntl C = some (Z, ch)) (hc : ch i = some c) (B : ℤ)
    (hB : ∀ i k, |C.rays i k| ≤ B) :
    Wf c ∧ c.vertex = C.vertex ∧ (∀ i k, |c.rays i k| ≤ n * B) ∧ SmallFacets c ((n * (n * B)) ^ (n - 1)) := by
  obtain ⟨rfl, -, hdec⟩ := barvinokStep_spec hP hC hs
  have hcd := childrenOf_eq hc
  obtain ⟨hwf, hr, -, hv⟩ := wf_computeDetAndFacets hcd
  have hn : (1 : ℤ) ≤ n := by exact_mod_cast Nat.one_le_iff_ne_zero.2 (NeZero.ne n)
  have hrays : ∀ a k, |(childCone C Z i).rays a k| ≤ n * B := by
    intro a k
    show |(C.rays.updateRow i Z) a k| ≤ n * B
    rw [Matrix.updateRow_apply]
    split_ifs
    · exact child_rays_bound C hC Z hdec B hB k
    · have h1 := hB a k
      have h0 : 0 ≤ B := (abs_nonneg _).trans h1
      nlinarith
  exact ⟨hwf, hv, fun a k => by rw [hr]; exact hrays a k, facets_small _ _ hcd _ hrays⟩

theorem reach_spec [NeZero n] (P : Params n) (hP : P.ntl.Ok) {C D : Cone n} {t : ℕ} (h : Reach P C t D) :
    ∀ B : ℤ, Wf C → (∀ i k, |C.rays i k| ≤ B) →
      Wf D ∧ D.vertex = C.vertex ∧ ((t = 0 ∧ D = C) ∨ SmallFacets D ((n ^ (t + 1) * B) ^ (n - 1))) := by
  induction h with
  | refl C => exact fun B hC _ => ⟨hC, rfl, Or.inl ⟨rfl, rfl⟩⟩
  | @step C c D Z ch i t hl hs hc hr ih =>
    intro B hC hB
    obtain ⟨hwf, hv, hrb, hsm⟩ := child_spec P hP hC hs hc B hB
    obtain ⟨h1, h2, h3⟩ := ih (n * B) hwf hrb
    refine ⟨h1, h2.trans hv, Or.inr ?_⟩
    rcases h3 with ⟨rfl, rfl⟩ | h3
    · have : ((n : ℤ) ^ (0 + 1 + 1) * B) = n * (n * B) := by ring
      rw [this]; exact hsm
    · have : ((n : ℤ) ^ (t + 1 + 1) * B) = n ^ (t + 1) * (n * B) := by ring
      rw [this]; exact h3

/-- **C64** After the vertex of a simplicial cone was moved, every cone which the primal recursion meets at a depth below
the estimate passes the irrationality check. -/
theorem c64_irrational_below_estimate [NeZero n] (P : Params n) (hP : P.ntl.Ok) (depth : Cone n → ℕ) (C C' : Cone n)
    (hC : Wf C) (h : irrationalizeSimplicial depth C = some C') (t : ℕ) (D : Cone n) (hr : Reach P C' t D)
    (ht : t < depth C) : isConeIrrational D := by
  have hn : 0 < n := Nat.pos_of_ne_zero (NeZero.ne n)
  obtain ⟨F, c, c', hF, -, h1, h2, hc', hirr, -, hi⟩ := irrationalize_spec depth C hC hn
  rw [hirr] at h
  obtain rfl := Option.some.inj h
  set k := bitsOfM n (depth C) (maxCoord (rowList C.rays)) with hk
  set w := newVertex c' k with hw
  have hC' : Wf { C with vertex := w } := wf_vertex hC w
  have hB : ∀ i j, |C.rays i j| ≤ maxCoord (rowList C.rays) := fun i j =>
    le_maxCoord _ _ (List.mem_map.2 ⟨i, List.mem_finRange i, rfl⟩) j
  obtain ⟨-, hv, hcase⟩ := reach_spec P hP hr (maxCoord (rowList C.rays)) hC' hB
  rcases hcase with ⟨-, rfl⟩ | ⟨G, hG, hsm⟩
  · exact (isConeIrrational_iff { C with vertex := w } F hF).2 hi
  · rw [isConeIrrational_iff D G hG, irrational_iff]
    intro f hf m
    obtain ⟨j, -, rfl⟩ := List.mem_map.1 hf
    rw [hv]
    refine newVertex_generic c h1 h2 c' hc' k (G j) (hsm j).1 (fun i => ((hsm j).2 i).trans ?_) m
    set X := maxCoord (rowList C.rays) with hX
    have hX0 : 0 ≤ X := maxCoord_nonneg _
    have hn1 : (1 : ℤ) ≤ n := by exact_mod_cast hn
    have s1 : ((n : ℤ) ^ (t + 1) * X) ^ (n - 1) ≤ ((n : ℤ) ^ depth C * X) ^ (n - 1) := by
      apply pow_le_pow_left₀ (by positivity)
      exact mul_le_mul_of_nonneg_right (pow_le_pow_right₀ hn1 (by omega)) hX0
    have s2 : (0 : ℤ) ≤ ((n : ℤ) ^ depth C * X) ^ (n - 1) := by positivity
    have s3 : (2 * ((n : ℤ) ^ depth C * X) ^ (n - 1)).natAbs < 2 ^ k := by
      rw [hk]; exact Nat.lt_size_self _
    have s4 : (2 * ((n : ℤ) ^ depth C * X) ^ (n - 1)) < 2 ^ k := by
      have : (((2 * ((n : ℤ) ^ depth C * X) ^ (n - 1)).natAbs : ℕ) : ℤ) < ((2 ^ k : ℕ) : ℤ) := by exact_mod_cast s3
      rw [Int.natCast_natAbs, abs_of_nonneg (by positivity)] at this
      exact_mod_cast this
    linarith

/-! ### The exception is not thrown -/

theorem loop_ne [NeZero n] (P : Params n) (N : ℕ) (ch : Fin n → Option (Cone n))
    (hN : ∀ j c, ch j = some c → c.determinant.natAbs < N)
    (hch : ∀ j c, ch j = some c → ∀ depth out md, dfs P c depth out md ≠ .notIrrational) :
    ∀ (js : List (Fin n)) (depth : ℕ) (out : List (Cone n)) (md : ℕ),
      loop P N ch hN js depth out md ≠ .notIrrational := by
  intro js
  induction js with
  | nil => intro depth out md; rw [loop]; exact fun h => by cases h
  | cons j js ih =>
    intro depth out md
    rw [loop]
    split
    · exact fun h => by cases h
    · rename_i c hc
      split
      · exact ih _ _ _
      · rename_i r hr
        exact fun h => hch j c hc _ _ _ h

theorem dfs_ne [NeZero n] (P : Params n) (hm : P.mode = .primal) : ∀ (N : ℕ) (C : Cone n), C.determinant.natAbs ≤ N →
    (∀ t D, Reach P C t D → isConeIrrational D) → ∀ depth out md, dfs P C depth out md ≠ .notIrrational := by
  intro N
  induction N with
  | zero =>
    intro C hN _ depth out md
    rw [dfs]
    have : criterion P.mode C = 0 := by
      rw [hm]; show |C.determinant| = 0
      rw [abs_eq_zero]; omega
    rw [if_pos this]
    exact fun h => by cases h
  | succ N ih =>
    intro C hN hirr depth out md
    rw [dfs]
    generalize (if depth > md then depth else md) = md'
    by_cases g1 : criterion P.mode C = 0
    · rw [if_pos g1]; exact fun h => by cases h
    rw [if_neg g1]
    have g2 : ¬ (P.mode = .primal ∧ ¬ isConeIrrational C) := fun h => h.2 (hirr 0 C (Reach.refl C))
    rw [if_neg g2]
    by_cases g3 : P.maxDet = 0 ∨ criterion P.mode C ≤ P.maxDet
    · rw [if_pos g3]
      unfold deliver
      rw [hm]
      exact fun h => by cases h
    · rw [if_neg g3]
      have hleaf : ¬ Leaf P C := by
        intro h
        apply g3
        rw [hm]
        exact h
      split
      · exact fun h => by cases h
      · rename_i Z ch hs
        have hci : ∀ i c, ch i = some c → ∀ t D, Reach P c t D → isConeIrrational D :=
          fun i c hc t D hr => hirr (t + 1) D (Reach.step hleaf hs hc hr)
        rw [if_neg]
        · apply loop_ne
          intro j c hc
          exact ih c (by have := step_decreases hs j c hc; omega) (hci j c hc)
        · rintro ⟨-, hno⟩
          exact hno fun i c hc => hci i c hc 0 c (Reach.refl c)

theorem reach_prefix [NeZero n] (P : Params n) {C D : Cone n} {s : ℕ} (h : Reach P C s D) :
    ∀ t, t < s → ∃ D', Reach P C t D' ∧ ¬ Leaf P D' := by
  induction h with
  | refl C => intro t ht; omega
  | @step C c D Z ch i t hl hs hc hr ih =>
    intro u hu
    rcases u with _ | u
    · exact ⟨C, Reach.refl C, hl⟩
    · obtain ⟨D', h1, h2⟩ := ih u (by omega)
      exact ⟨D', Reach.step hl hs hc h1, h2⟩

/-- **C64** If no cone at the estimated depth is reached, the recursion does not fail with the exception "not
irrational". -/
theorem c64_no_exception_if_deep_enough [NeZero n] (P : Params n) (hP : P.ntl.Ok) (hm : P.mode = .primal)
    (depth : Cone n → ℕ) (C C' : Cone n) (hC : Wf C) (h : irrationalizeSimplicial depth C = some C')
    (hdeep : ∀ D, ¬ Reach P C' (depth C) D) (d : ℕ) (out : List (Cone n)) (md : ℕ) :
    dfs P C' d out md ≠ .notIrrational := by
  refine dfs_ne P hm _ C' le_rfl (fun t D hr => ?_) d out md
  refine c64_irrational_below_estimate P hP depth C C' hC h t D hr ?_
  by_contra hc
  push Not at hc
  rcases hc.eq_or_lt with e | hlt
  · exact hdeep D (e ▸ hr)
  · obtain ⟨D', h1, -⟩ := reach_prefix P hr _ hlt
    exact hdeep D' h1

/-- Every step reduces the determinant as much as a shortest vector does (Minkowski's theorem guarantees such a vector;
LLL is only known to find one in practice). -/
def GoodSteps [NeZero n] (P : Params n) (C : Cone n) : Prop :=
  ∀ t D, Reach P C t D → ∀ Z ch i c, barvinokStep P.ntl D = some (Z, ch) → ch i = some c →
    c.determinant.natAbs ^ n ≤ D.determinant.natAbs ^ (n - 1)

theorem reach_det [NeZero n] (P : Params n) {C D : Cone n} {t : ℕ} (h : Reach P C t D) (hg : GoodSteps P C) :
    D.determinant.natAbs ^ n ^ t ≤ C.determinant.natAbs ^ (n - 1) ^ t := by
  induction h with
  | refl C => simp
  | @step C c D Z ch i t hl hs hc hr ih =>
    have h1 := ih (fun t D hr => hg (t + 1) D (Reach.step hl hs hc hr))
    have h2 := hg 0 C (Reach.refl C) Z ch i c hs hc
    calc D.determinant.natAbs ^ n ^ (t + 1) = (D.determinant.natAbs ^ n ^ t) ^ n := by rw [pow_succ, pow_mul]
      _ ≤ (c.determinant.natAbs ^ (n - 1) ^ t) ^ n := Nat.pow_le_pow_left h1 n
      _ = (c.determinant.natAbs ^ n) ^ (n - 1) ^ t := by rw [← pow_mul, ← pow_mul, mul_comm]
      _ ≤ (C.determinant.natAbs ^ (n - 1)) ^ (n - 1) ^ t := Nat.pow_le_pow_left h2 _
      _ = C.determinant.natAbs ^ (n - 1) ^ (t + 1) := by rw [← pow_mul, pow_succ, mul_comm]

/-- Specification of `estimate_barvinok_depth` (Irrational.cpp 217-239) in exact arithmetic: the value
`1 + ⌈log(NumBits det) / log(1 + 1/(n-1))⌉` is `1 + t` with `(n/(n-1))^t ≥ NumBits det`. -/
def EstimateOk (depth : Cone n → ℕ) (C : Cone n) : Prop :=
  ∃ t, depth C = 1 + t ∧ Nat.size C.determinant.natAbs * (n - 1) ^ t ≤ n ^ t

/-- **C64** With the estimate of the code (in exact arithmetic) the exception "not irrational" is never thrown as long as
the short vectors found are as good as Minkowski's theorem promises. -/
theorem c64_no_exception [NeZero n] (P : Params n) (hP : P.ntl.Ok) (hm : P.mode = .primal) (h1 : 1 ≤ P.maxDet)
    (depth : Cone n → ℕ) (C C' : Cone n) (hC : Wf C) (h : irrationalizeSimplicial depth C = some C')
    (hest : EstimateOk depth C) (hg : GoodSteps P C') (d : ℕ) (out : List (Cone n)) (md : ℕ) :
    dfs P C' d out md ≠ .notIrrational := by
  refine c64_no_exception_if_deep_enough P hP hm depth C C' hC h (fun D hr => ?_) d out md
  obtain ⟨t, ht, hsz⟩ := hest
  rw [ht] at hr
  obtain ⟨D', hr', hl⟩ := reach_prefix P hr t (by omega)
  have hdet := reach_det P hr' hg
  have hn : 0 < n := Nat.pos_of_ne_zero (NeZero.ne n)
  obtain ⟨w, hw, -⟩ := c63_simplicial depth C hC hn
  rw [hw] at h
  obtain rfl := Option.some.inj h
  apply hl
  right
  suffices D'.determinant.natAbs ≤ 1 by
    rw [Int.abs_eq_natAbs]
    omega
  by_contra hc
  push Not at hc
  have a1 : 2 ^ n ^ t ≤ D'.determinant.natAbs ^ n ^ t := Nat.pow_le_pow_left hc _
  have hCd : C.determinant.natAbs < 2 ^ Nat.size C.determinant.natAbs := Nat.lt_size_self _
  simp only at hdet
  rcases Nat.eq_zero_or_pos ((n - 1) ^ t) with e | e
  · rw [e, pow_zero] at hdet
    have : 2 ≤ 2 ^ n ^ t := by
      calc 2 = 2 ^ 1 := rfl
        _ ≤ 2 ^ n ^ t := Nat.pow_le_pow_right (by norm_num) (Nat.one_le_pow _ _ hn)
    omega
  · have a2 : C.determinant.natAbs ^ (n - 1) ^ t < (2 ^ Nat.size C.determinant.natAbs) ^ (n - 1) ^ t :=
      Nat.pow_lt_pow_left hCd e.ne'
    rw [← pow_mul] at a2
    have a3 : 2 ^ (Nat.size C.determinant.natAbs * (n - 1) ^ t) ≤ 2 ^ n ^ t := Nat.pow_le_pow_right (by norm_num) hsz
    omega

/-! ### End to end -/

/-- The vertex put into `barvinok_Single` by the model of `irrationalizeCone`. -/
def irrVertex (depth : Cone n → ℕ) (C : Cone n) : Fin n → ℚ :=
  ((irrationalizeSimplicial depth C).getD C).vertex

/-- **C63, primal decomposition of a cone given by its dual, end to end.** A successful run of `barvinok_Single` in the
variant which dualizes, moves the vertex and decomposes the primal cone delivers cones that count every lattice point of
the cone *at its original vertex* exactly: for every integer point `z`, the signed number of delivered cones containing it
is 1 or 0 according to whether the cone polar to the given one, at the original vertex, contains `z`. -/
theorem c63_single_lattice_exact [NeZero n] (P : Params n) (hP : P.ntl.Ok) (hm : P.mode = .primal) (depth : Cone n → ℕ)
    (B : Mat n) (vertex : Fin n → ℚ) (out : List (Cone n)) (md : ℕ) {out' : List (Cone n)} {md' : ℕ}
    (h : barvinokSingle P .irrationalPrimal (irrVertex depth) B vertex out md = .done true out' md') :
    ∃ A : Mat n, (∀ y, y ∈ cone A ↔ ∀ x ∈ cone B, ∑ k, x k * y k ≤ 0) ∧
    ∃ new, out' = out ++ new ∧ ∀ z : Vec n,
      ind (cone A) (rel z vertex) = (new.map fun D => D.coefficient * ind (cone D.rays) (rel z D.vertex)).sum := by
  unfold barvinokSingle at h
  split at h
  · cases h
  · rename_i hB
    obtain ⟨-, D0, h0, hwf, hc, hv, hpol⟩ := start_wf B hB vertex
    simp only [h0] at h
    obtain ⟨w, hw, hsame, -, -⟩ := c63_simplicial depth D0 hwf (Nat.pos_of_ne_zero (NeZero.ne n))
    have hirr : irrVertex depth D0 = w := by unfold irrVertex; rw [hw]; rfl
    rw [hirr] at h
    obtain ⟨new, h1, h2⟩ := dfs_lattice_exact P hP hm _ (wf_vertex hwf w) _ _ _ h
    refine ⟨D0.rays, hpol, new, h1, fun z => ?_⟩
    rw [← h2 z]
    show _ = D0.coefficient * ind (cone D0.rays) (rel z w)
    rw [hc, one_mul]
    unfold ind
    rw [← hv]
    by_cases hz : rel z D0.vertex ∈ cone D0.rays
    · rw [if_pos hz, if_pos ((hsame z).2 hz)]
    · rw [if_neg hz, if_neg (fun h => hz ((hsame z).1 h))]

theorem onFacetPlane_matrixGCD (B : Mat n) (_hB : B.det ≠ 0) (p : Fin n → ℝ) (h : OnFacetPlane B p) :
    OnFacetPlane (matrixGCD B) p := by
  obtain ⟨a, ⟨i, hi⟩, rfl⟩ := h
  refine ⟨fun i => a i * (rowGcd (B i) : ℝ), ⟨i, by show a i * _ = 0; rw [hi, zero_mul]⟩, ?_⟩
  funext k
  unfold comb
  refine Finset.sum_congr rfl fun i _ => ?_
  have hmm : ((B i k : ℤ) : ℝ) = (rowGcd (B i) : ℝ) * (matrixGCD B i k : ℝ) := by
    exact_mod_cast (matrixGCD_mul B i k).symm
  rw [hmm]; ring

/-- One simplex of the all-primal variant: if it succeeds, no lattice point lies on a facet hyperplane of the simplex cone
and the delivered cones count every lattice point exactly. -/
theorem single_lattice_exact_allPrimal [NeZero n] (P : Params n) (hP : P.ntl.Ok) (hm : P.mode = .primal)
    (irr : Cone n → Fin n → ℚ) (B : Mat n) (vertex : Fin n → ℚ) (out : List (Cone n)) (md : ℕ) {out' : List (Cone n)}
    {md' : ℕ} (h : barvinokSingle P .irrationalAllPrimal irr B vertex out md = .done true out' md') :
    (∀ z : Vec n, ¬ OnFacetPlane B (rel z vertex)) ∧ ∃ new, out' = out ++ new ∧ ∀ z : Vec n,
      ind (cone B) (rel z vertex) = (new.map fun D => D.coefficient * ind (cone D.rays) (rel z D.vertex)).sum := by
  unfold barvinokSingle at h
  split at h
  · cases h
  · rename_i hB
    obtain ⟨⟨D0, h0, hwf, hc, hv, hr⟩, -⟩ := start_wf B hB vertex
    simp only [h0] at h
    obtain ⟨new, h1, h2⟩ := dfs_lattice_exact P hP hm D0 hwf _ _ _ h
    refine ⟨fun z hz => ?_, new, h1, fun z => ?_⟩
    · have hirr := dfs_irrational P hm D0 hwf _ _ _ h
      obtain ⟨F, hF, hdual, -⟩ := hwf.facets
      have := rel_off_planes D0 hwf.det_ne F hF hwf.div_pos hdual hirr z
      rw [hr, hv] at this
      exact this (onFacetPlane_matrixGCD B hB _ hz)
    · rw [← h2 z, hc, one_mul, hr, hv, matrixGCD_cone B hB]

theorem decomposition_lattice_exact [NeZero n] (P : Params n) (hP : P.ntl.Ok) (hm : P.mode = .primal)
    (irr : Cone n → Fin n → ℚ) (vertex : Fin n → ℚ) (T : List (Mat n)) :
    ∀ (out : List (Cone n)) (md : ℕ) {out' : List (Cone n)} {md' : ℕ},
    barvinokDecompositionSingle P .irrationalAllPrimal irr vertex T out md = .done true out' md' →
    (∀ z : Vec n, ∀ B ∈ T, ¬ OnFacetPlane B (rel z vertex)) ∧ ∃ new, out' = out ++ new ∧ ∀ z : Vec n,
        (T.map fun B => ind (cone B) (rel z vertex)).sum =
          (new.map fun D => D.coefficient * ind (cone D.rays) (rel z D.vertex)).sum := by
  induction T with
  | nil =>
    intro out md out' md' h
    unfold barvinokDecompositionSingle at h
    cases h
    exact ⟨by simp, [], by simp, fun z => rfl⟩
  | cons B T ih =>
    intro out md out' md' h
    unfold barvinokDecompositionSingle at h
    split at h
    · rename_i out1 md1 h1
      obtain ⟨a1, new1, rfl, e1⟩ := single_lattice_exact_allPrimal P hP hm irr B vertex out md h1
      obtain ⟨a2, new2, rfl, e2⟩ := ih _ _ h
      refine ⟨?_, new1 ++ new2, by simp, fun z => ?_⟩
      · intro z B' hB'
        rcases List.mem_cons.1 hB' with rfl | hB'
        · exact a1 z
        · exact a2 z B' hB'
      · rw [List.map_cons, List.sum_cons, List.map_append, List.sum_append, e1 z, e2 z]
    · rename_i r hne
      exact absurd h (hne _ _)

/-- Specification: the simplicial cones of the matrices `T` triangulate the cone of the facet normals `F`: away from their
facet hyperplanes they count every point of the cone once. -/
def Triangulates (T : List (Mat n)) (F : List (Vec n)) : Prop :=
  ∀ p : Fin n → ℝ, (∀ B ∈ T, ¬ OnFacetPlane B p) → (∀ f ∈ F, dot f p ≠ 0) →
    ind {x | ∀ f ∈ F, dot f x ≤ 0} p = (T.map fun B => ind (cone B) p).sum

/-- **C63, all-primal decomposition of an arbitrary cone, end to end.** Let the vertex `v` of a full-dimensional cone be
moved (arbitrary number of facets), let the cone be triangulated, and let the simplices be decomposed successfully.  Then
for every integer point `z`, the signed number of delivered cones containing `z` is 1 or 0 according to whether the cone
*at its original vertex* contains `z`. -/
theorem c63_allPrimal_lattice_exact [NeZero n] (P : Params n) (hP : P.ntl.Ok) (hm : P.mode = .primal)
    (irr : Cone n → Fin n → ℚ) (lp : Solver n) (hlp : SolverOk lp) (depth : ℕ) (rays F : List (Vec n)) (hF : F ≠ [])
    (h0 : ∀ f ∈ F, f ≠ 0) (v u : Fin n → ℚ) (hu : ∀ f ∈ F, 0 < dotQ f u) (T : List (Mat n)) (hT : Triangulates T F)
    (w : Fin n → ℚ) (hw : irrationalizeGeneral lp depth rays F v = some w)
    (out : List (Cone n)) (md : ℕ) {out' : List (Cone n)} {md' : ℕ}
    (h : barvinokDecompositionSingle P .irrationalAllPrimal irr w T out md = .done true out' md') :
    ∃ new, out' = out ++ new ∧ ∀ z : Vec n,
      ind {x | ∀ f ∈ F, dot f x ≤ 0} (rel z v) =
        (new.map fun D => D.coefficient * ind (cone D.rays) (rel z D.vertex)).sum := by
  obtain ⟨w', hw', hsame, hoff⟩ := c63_general lp hlp depth rays F hF h0 v u hu
  obtain rfl : w = w' := by rw [hw] at hw'; exact Option.some.inj hw'
  obtain ⟨hpl, new, h1, h2⟩ := decomposition_lattice_exact P hP hm irr w T out md h
  have key : ∀ (x : Fin n → ℚ) (z : Vec n), rel z x ∈ {x | ∀ f ∈ F, dot f x ≤ 0} ↔ InCone F x z := by
    intro x z
    refine forall₂_congr fun f _ => ?_
    rw [dot_rel, show ((0 : ℝ)) = ((0 : ℚ) : ℝ) by norm_num, Rat.cast_le, sub_nonpos]
  refine ⟨new, h1, fun z => ?_⟩
  rw [← h2 z, ← hT (rel z w) (hpl z) (fun f hf => ?_)]
  · unfold ind
    by_cases hz : InCone F v z
    · rw [if_pos ((key v z).2 hz), if_pos ((key w z).2 ((hsame z).2 hz))]
    · rw [if_neg (fun hc => hz ((key v z).1 hc)), if_neg (fun hc => hz ((hsame z).1 ((key w z).1 hc)))]
  · rw [dot_rel]
    have := hoff f hf z
    exact_mod_cast sub_ne_zero.2 this

/-- **C64** The same vertex also works for the walls of any triangulation without new rays: for every simplex whose rays
are among the rays of the cone, the first check of the recursion is passed if the estimate is at least 1. -/
theorem c64_triangulation_walls (lp : Solver n) (hlp : SolverOk lp) (depth : ℕ) (hd : 1 ≤ depth) (rays F : List (Vec n))
    (hF : F ≠ []) (h0 : ∀ f ∈ F, f ≠ 0) (v u : Fin n → ℚ) (hu : ∀ f ∈ F, 0 < dotQ f u) (w : Fin n → ℚ)
    (hw : irrationalizeGeneral lp depth rays F v = some w) (C D : Cone n) (hr : ∀ i, C.rays i ∈ rays) (hCv : C.vertex = w)
    (hD : computeDetAndFacets C = some D) : isConeIrrational D := by
  obtain ⟨h1, h2, hst⟩ := generalCube_stable lp hlp F hF h0 v u hu
  obtain ⟨c', hc', hgood⟩ := newVertex_good F v _ h1 h2 hst
  obtain ⟨g1, -, -⟩ := hgood (bitsOfM n depth (maxCoord rays))
  have hwe : w = newVertex c' (bitsOfM n depth (maxCoord rays)) := by
    unfold irrationalizeGeneral at hw
    simp only [hc', g1] at hw
    exact (Option.some.inj hw).symm
  set k := bitsOfM n depth (maxCoord rays) with hk
  obtain ⟨G, hG, hsm⟩ := facets_small C D hD (maxCoord rays) (fun i j => le_maxCoord _ _ (hr i) j)
  have hvD := (wf_computeDetAndFacets hD).2.2.2
  rw [isConeIrrational_iff D G hG, irrational_iff]
  intro f hf m
  obtain ⟨j, -, rfl⟩ := List.mem_map.1 hf
  rw [hvD, hCv, hwe]
  refine newVertex_generic _ h1 h2 c' hc' k (G j) (hsm j).1 (fun i => ((hsm j).2 i).trans ?_) m
  set X := maxCoord rays with hX
  have hX0 : 0 ≤ X := maxCoord_nonneg _
  have hn : n ≠ 0 := by rintro rfl; exact i.elim0
  have hn1 : (1 : ℤ) ≤ n := by exact_mod_cast Nat.one_le_iff_ne_zero.2 hn
  have s1 : ((n : ℤ) * X) ^ (n - 1) ≤ ((n : ℤ) ^ depth * X) ^ (n - 1) := by
    apply pow_le_pow_left₀ (by positivity)
    refine mul_le_mul_of_nonneg_right ?_ hX0
    calc (n : ℤ) = n ^ 1 := (pow_one _).symm
      _ ≤ n ^ depth := pow_le_pow_right₀ hn1 hd
  have s2 : (0 : ℤ) ≤ ((n : ℤ) ^ depth * X) ^ (n - 1) := by positivity
  have s3 : (2 * ((n : ℤ) ^ depth * X) ^ (n - 1)).natAbs < 2 ^ k := by
    rw [hk]; exact Nat.lt_size_self _
  have s4 : (2 * ((n : ℤ) ^ depth * X) ^ (n - 1)) < 2 ^ k := by
    have : (((2 * ((n : ℤ) ^ depth * X) ^ (n - 1)).natAbs : ℕ) : ℤ) < ((2 ^ k : ℕ) : ℤ) := by exact_mod_cast s3
    rw [Int.natCast_natAbs, abs_of_nonneg (by positivity)] at this
    exact_mod_cast this
  linarith

/-- non-vacuity: a cone of index 2 in the plane is moved and then decomposed without exception (whatever `depth` is at
least 2) -/
example (depth : Cone 2 → ℕ) : ∃ w, irrationalizeSimplicial depth exCone = some { exCone with vertex := w } ∧
    ∀ z : Vec 2, rel z w ∈ cone exCone.rays ↔ rel z exCone.vertex ∈ cone exCone.rays :=
  (c63_simplicial depth exCone exCone_wf (by norm_num)).imp fun _ h => ⟨h.1, h.2.1⟩

/-- non-vacuity of `EstimateOk`: the index 2 has two bits, and `2^1 ≥ 2·1^1` -/
example : EstimateOk (fun _ => 2) exCone := ⟨1, rfl, by decide⟩

end Verif.Irrational
