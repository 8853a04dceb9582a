import Verif.Barvinok.Props

/-!
# The rays of all cones of the recursion are primitive

Consequence: the facet divisors of every delivered cone divide its determinant, in dual mode as
well; the enumeration of lattice points relies on it (C13).
-/

namespace Verif.Barvinok

open Spec Matrix

/-- No common factor. -/
def Prim {n : ℕ} (v : Vec n) : Prop := ∀ e : ℤ, (∀ k, e ∣ v k) → IsUnit e

theorem prim_neg {n : ℕ} {v : Vec n} (h : Prim v) : Prim (-v) :=
  fun e he => h e fun k => by simpa using he k

/-- Rows of a unimodular combination: `w ᵥ* U` is divisible by `e` only if `w` is. -/
theorem dvd_of_vecMul {n : ℕ} (U : Mat n) (hU : IsUnit U.det) (w : Vec n) (e : ℤ)
    (h : ∀ k, e ∣ (w ᵥ* U) k) (j : Fin n) : e ∣ w j := by
  have h1 : (w ᵥ* U) ᵥ* U⁻¹ = w := by
    rw [vecMul_vecMul, mul_nonsing_inv U hU, vecMul_one]
  rw [← h1]
  simp only [vecMul, dotProduct]
  exact Finset.dvd_sum fun k _ => (h k).mul_right _

theorem prim_vecMul {n : ℕ} (U : Mat n) (hU : IsUnit U.det) {w : Vec n} (hw : Prim w) :
    Prim (w ᵥ* U) := fun e he => hw e (dvd_of_vecMul U hU w e he)

theorem prim_single {n : ℕ} (i : Fin n) : Prim (Pi.single i 1 : Vec n) := fun e he => by
  have := he i
  rw [Pi.single_eq_same] at this
  exact isUnit_of_dvd_one this

theorem computeOmega0_prim {n : ℕ} [NeZero n] (N : Ntl n) (hN : N.Ok) (dual : Mat n) :
    Prim (computeOmega0 N dual) := by
  unfold computeOmega0
  simp only
  have := prim_vecMul _ (hN.lll_unimodular (-dual.transpose))
    (prim_single (shortIndex (N.lll (-dual.transpose)).1))
  rwa [single_one_vecMul] at this

/-! ## The exhaustive search -/

theorem norm_foldl {n : ℕ} (x : Vec n) (l : List (Fin n)) (m : ℤ) :
    m ≤ l.foldl (fun (m : ℤ) i => if m < |x i| then |x i| else m) m ∧
    (∀ i ∈ l, |x i| ≤ l.foldl (fun (m : ℤ) i => if m < |x i| then |x i| else m) m) ∧
    ∀ b, m ≤ b → (∀ i ∈ l, |x i| ≤ b) →
      l.foldl (fun (m : ℤ) i => if m < |x i| then |x i| else m) m ≤ b := by
  induction l generalizing m with
  | nil => simp
  | cons a l ih =>
    obtain ⟨h1, h2, h3⟩ := ih (if m < |x a| then |x a| else m)
    simp only [List.foldl_cons]
    have h4 : m ≤ (if m < |x a| then |x a| else m) ∧
        |x a| ≤ (if m < |x a| then |x a| else m) := by
      split
      · exact ⟨by linarith, le_rfl⟩
      · exact ⟨le_rfl, by linarith⟩
    refine ⟨h4.1.trans h1, fun i hi => ?_, fun b hb hl => h3 b ?_ fun i hi =>
      hl i (List.mem_cons_of_mem _ hi)⟩
    · rcases List.mem_cons.mp hi with rfl | hi
      · exact h4.2.trans h1
      · exact h2 i hi
    · split
      · exact hl a (List.mem_cons_self ..)
      · exact hb

theorem abs_le_norm {n : ℕ} (x : Vec n) (i : Fin n) : |x i| ≤ norm x :=
  (norm_foldl x _ 0).2.1 i (List.mem_finRange i)

theorem norm_le {n : ℕ} (x : Vec n) (b : ℤ) (hb : 0 ≤ b) (h : ∀ i, |x i| ≤ b) : norm x ≤ b :=
  (norm_foldl x _ 0).2.2 b hb fun i _ => h i

theorem norm_nonneg {n : ℕ} (x : Vec n) : 0 ≤ norm x := (norm_foldl x _ 0).1

theorem norm_ne {n : ℕ} {x : Vec n} (h : x ≠ 0) : norm x ≠ 0 := by
  intro h0
  apply h
  funext i
  have := abs_le_norm x i
  rw [h0] at this
  exact abs_nonpos_iff.mp this

/-- A proper divisor of a vector has a strictly smaller norm. -/
theorem norm_div_lt {n : ℕ} {x y : Vec n} (hy : y ≠ 0) (e : ℤ) (he : 2 ≤ |e|)
    (h : ∀ k, x k = e * y k) : norm y < norm x := by
  have h1 : 2 * norm y ≤ norm x := by
    have : norm y ≤ norm x / 2 := by
      apply norm_le _ _ (Int.ediv_nonneg (norm_nonneg x) (by norm_num))
      intro i
      rw [Int.le_ediv_iff_mul_le (by norm_num)]
      have h2 := abs_le_norm x i
      rw [h i, abs_mul] at h2
      have := mul_le_mul_of_nonneg_right he (abs_nonneg (y i))
      linarith
    omega
  have h2 := norm_ne hy
  have h3 := norm_nonneg y
  omega

/-- Result of the exhaustive search: the start vector, or a combination of least norm. -/
theorem searchShort_min {n : ℕ} (L : Mat n) (start : Vec n) :
    searchShort L start = start ∨
    ∃ c, 1 ≤ c ∧ c < 10 ^ n ∧ searchShort L start = combo L c ∧
      ∀ c', 1 ≤ c' → c' < 10 ^ n → norm (combo L c') ≠ 0 →
        norm (searchShort L start) ≤ norm (combo L c') := by
  unfold searchShort
  have key : ∀ (l : List ℕ) (s : Vec n) (b : ℤ),
      ((l.foldl (fun (s : Vec n × ℤ) i =>
        if norm (combo L (i + 1)) < s.2 ∧ norm (combo L (i + 1)) ≠ 0
        then (combo L (i + 1), norm (combo L (i + 1))) else s) (s, b)).1 = s ∧
        (l.foldl (fun (s : Vec n × ℤ) i =>
        if norm (combo L (i + 1)) < s.2 ∧ norm (combo L (i + 1)) ≠ 0
        then (combo L (i + 1), norm (combo L (i + 1))) else s) (s, b)).2 = b ∧
        ∀ i ∈ l, norm (combo L (i + 1)) ≠ 0 → b ≤ norm (combo L (i + 1))) ∨
      (∃ i ∈ l, (l.foldl (fun (s : Vec n × ℤ) i =>
        if norm (combo L (i + 1)) < s.2 ∧ norm (combo L (i + 1)) ≠ 0
        then (combo L (i + 1), norm (combo L (i + 1))) else s) (s, b)).1 = combo L (i + 1) ∧
        norm (combo L (i + 1)) < b ∧
        ∀ j ∈ l, norm (combo L (j + 1)) ≠ 0 →
          norm (combo L (i + 1)) ≤ norm (combo L (j + 1))) := by
    intro l
    induction l with
    | nil => intro s b; left; simp
    | cons a l ih =>
      intro s b
      simp only [List.foldl_cons]
      by_cases ha : norm (combo L (a + 1)) < b ∧ norm (combo L (a + 1)) ≠ 0
      · rw [if_pos ha]
        right
        rcases ih (combo L (a + 1)) (norm (combo L (a + 1))) with ⟨h1, h2, h3⟩ | ⟨i, hi, h1, h2, h3⟩
        · refine ⟨a, List.mem_cons_self .., h1, ha.1, fun j hj hn => ?_⟩
          rcases List.mem_cons.mp hj with rfl | hj
          · exact le_rfl
          · exact h3 j hj hn
        · refine ⟨i, List.mem_cons_of_mem _ hi, h1, h2.trans ha.1, fun j hj hn => ?_⟩
          rcases List.mem_cons.mp hj with rfl | hj
          · exact h2.le
          · exact h3 j hj hn
      · rw [if_neg ha]
        have ha' : norm (combo L (a + 1)) ≠ 0 → b ≤ norm (combo L (a + 1)) := fun hn => by
          by_contra hc
          exact ha ⟨not_le.mp hc, hn⟩
        rcases ih s b with ⟨h1, h2, h3⟩ | ⟨i, hi, h1, h2, h3⟩
        · left
          refine ⟨h1, h2, fun j hj hn => ?_⟩
          rcases List.mem_cons.mp hj with rfl | hj
          · exact ha' hn
          · exact h3 j hj hn
        · right
          refine ⟨i, List.mem_cons_of_mem _ hi, h1, h2, fun j hj hn => ?_⟩
          rcases List.mem_cons.mp hj with rfl | hj
          · exact h2.le.trans (ha' hn)
          · exact h3 j hj hn
  have hp : 0 < 10 ^ n := by positivity
  rcases key (List.range (10 ^ n - 1)) start 100000000 with ⟨h1, -, -⟩ | ⟨i, hi, h1, -, h3⟩
  · left; exact h1
  · right
    rw [List.mem_range] at hi
    refine ⟨i + 1, by omega, by omega, h1, fun c' h1' h2' hn => ?_⟩
    rw [h1]
    have := h3 (c' - 1) (List.mem_range.mpr (by omega))
    rw [Nat.sub_add_cancel h1'] at this
    exact this hn

/-- Every digit vector with entries in `-5 … 4` belongs to some count. -/
theorem exists_count {n : ℕ} (w : Vec n) (hw : ∀ j, -5 ≤ w j ∧ w j ≤ 4) :
    ∃ c < 10 ^ n, ∀ j, digit n c j = w j := by
  let f : Fin n → Fin 10 := fun j => ⟨(w j.rev + 5).toNat, by have := hw j.rev; omega⟩
  refine ⟨finFunctionFinEquiv f, (finFunctionFinEquiv f).isLt, fun j => ?_⟩
  have h1 : finFunctionFinEquiv.symm (finFunctionFinEquiv f) j.rev = f j.rev := by simp
  have h2 : (finFunctionFinEquiv.symm (finFunctionFinEquiv f) j.rev : Fin 10).val =
      (finFunctionFinEquiv f).val / 10 ^ (j.rev : ℕ) % 10 := rfl
  rw [h1] at h2
  unfold digit
  have h3 : n - 1 - j.val = (j.rev : ℕ) := by rw [Fin.val_rev]; omega
  rw [h3, ← h2]
  simp only [f, Fin.rev_rev]
  have := hw j
  omega

theorem digit_zero_count {n : ℕ} [NeZero n] (c : ℕ) (h : c = 0) (j : Fin n) : digit n c j = -5 := by
  subst h; simp [digit]

theorem digit_bounds (n c : ℕ) (j : Fin n) : -5 ≤ digit n c j ∧ digit n c j ≤ 4 := by
  unfold digit
  have := Nat.mod_lt (c / 10 ^ (n - 1 - j.val)) (show 10 > 0 by norm_num)
  omega

theorem combo_eq {n : ℕ} (L : Mat n) (c : ℕ) : combo L c = (fun j => digit n c j) ᵥ* L := rfl

/-- The search returns a primitive combination of the rows. -/
theorem searchShort_prim {n : ℕ} [NeZero n] (L : Mat n) (hL : L.det ≠ 0) (i : Fin n) :
    ∃ w : Vec n, Prim w ∧ searchShort L (L i) = w ᵥ* L := by
  rcases searchShort_min L (L i) with h | ⟨c, hc1, hc2, hc, hmin⟩
  · exact ⟨Pi.single i 1, prim_single i, by rw [h, single_one_vecMul]; rfl⟩
  · refine ⟨fun j => digit n c j, ?_, hc⟩
    intro e he
    by_contra hne
    -- the combination is not zero, so `e ≠ 0`
    have hs : searchShort L (L i) ≠ 0 :=
      (searchShort_spec L (L i) (row_ne_zero L hL i)
        ⟨Pi.single i 1, by rw [single_one_vecMul]; rfl⟩).1
    have he0 : e ≠ 0 := by
      rintro rfl
      apply hs
      rw [hc, combo_eq]
      have : (fun j => digit n c j) = 0 := funext fun j => zero_dvd_iff.mp (he j)
      rw [this, zero_vecMul]
    have he2 : 2 ≤ |e| := by
      rw [Int.isUnit_iff] at hne
      push Not at hne
      have := abs_pos.mpr he0
      have : |e| ≠ 1 := fun h => by
        rcases (abs_eq (by norm_num)).mp h with h | h
        · exact hne.1 h
        · exact hne.2 h
      omega
    choose y hy using he
    replace hy : ∀ k, digit n c k = e * y k := hy
    have hyb : ∀ j, -5 ≤ y j ∧ y j ≤ 4 ∧ y j ≠ -5 := by
      intro j
      have h1 := digit_bounds n c j
      rw [hy j] at h1
      have h2 : |e * y j| ≤ 5 := abs_le.mpr ⟨h1.1, by linarith [h1.2]⟩
      rw [abs_mul] at h2
      have h3 := mul_le_mul_of_nonneg_right he2 (abs_nonneg (y j))
      have h4 : |y j| ≤ 2 := by omega
      have := abs_le.mp h4
      omega
    obtain ⟨c', hc', hd'⟩ := exists_count y fun j => ⟨(hyb j).1, (hyb j).2.1⟩
    have hc'1 : 1 ≤ c' := by
      by_contra h0
      have h1 := digit_zero_count c' (by omega) (0 : Fin n)
      rw [hd'] at h1
      exact (hyb 0).2.2 h1
    have hrel : ∀ k, searchShort L (L i) k = e * combo L c' k := by
      intro k
      rw [hc]
      unfold combo
      rw [Finset.mul_sum]
      exact Finset.sum_congr rfl fun j _ => by rw [hy j, hd' j]; ring
    have hne' : combo L c' ≠ 0 := by
      intro h0
      apply hs
      funext k
      rw [hrel, h0]; simp
    have h1 := hmin c' hc'1 hc' (norm_ne hne')
    have h2 := norm_div_lt hne' e he2 hrel
    omega

theorem computeOmega2_prim {n : ℕ} [NeZero n] (N : Ntl n) (hN : N.Ok) (dual : Mat n)
    (hd : dual.det ≠ 0) : Prim (computeOmega2 N dual) := by
  unfold computeOmega2
  simp only
  set LL : Mat n := -dual.transpose with hLL
  have hLLd : LL.det ≠ 0 := by
    rw [hLL, det_neg, det_transpose]
    exact mul_ne_zero (pow_ne_zero _ (by norm_num)) hd
  have hL : (N.lll LL).1.det ≠ 0 := by
    rw [hN.lll_mul LL, det_mul]
    exact mul_ne_zero (unit_det_ne (hN.lll_unimodular LL)) hLLd
  obtain ⟨w, hw, hs⟩ := searchShort_prim (N.lll LL).1 hL (shortIndex (N.lll LL).1)
  have hs2 : (w ᵥ* (N.lll LL).2) ᵥ* LL =
      searchShort (N.lll LL).1 ((N.lll LL).1 (shortIndex (N.lll LL).1)) := by
    rw [vecMul_vecMul, ← hN.lll_mul, ← hs]
  have hsol := hN.solve LL _ ⟨w ᵥ* (N.lll LL).2, hs2⟩
  have heq : N.latticeSolve LL
      (searchShort (N.lll LL).1 ((N.lll LL).1 (shortIndex (N.lll LL).1))) = w ᵥ* (N.lll LL).2 := by
    have h0 : (N.latticeSolve LL
      (searchShort (N.lll LL).1 ((N.lll LL).1 (shortIndex (N.lll LL).1))) -
        w ᵥ* (N.lll LL).2) = 0 := by
      apply row_indep LL hLLd
      intro k
      have h1 := congrFun hsol k
      have h2 := congrFun hs2 k
      simp only [Pi.sub_apply, sub_mul, Finset.sum_sub_distrib]
      simp only [vecMul, dotProduct] at h1 h2 ⊢
      rw [h1, h2, sub_self]
    exact sub_eq_zero.mp h0
  rw [heq]
  exact prim_vecMul _ (hN.lll_unimodular LL) hw

theorem chooseOmega_prim {n : ℕ} [NeZero n] {N : Ntl n} (hN : N.Ok) {C : Cone n} (hC : Wf C)
    {Z : Vec n} (h : chooseOmega N C = some Z) : Prim Z := by
  have hcheck : ∀ Z, Prim Z → Prim (checkOmega N C.rays Z) := by
    intro Z hZ
    unfold checkOmega
    simp only
    split
    · exact prim_neg hZ
    · exact hZ
  unfold chooseOmega at h
  split at h
  · cases h
  · rename_i dual hdual
    simp only at h
    split at h
    · cases h
      exact hcheck _ (computeOmega0_prim N hN dual)
    · split at h
      · cases h
        exact hcheck _ (computeOmega2_prim N hN dual (facetMatrix_det hC hdual))
      · cases h

/-! ## Through the recursion -/

/-- All newly delivered cones come from working rays that are primitive. -/
def PrimOut {n : ℕ} (P : Params n) (out : List (Cone n)) : Outcome n → Prop
  | .done _ out' _ => ∃ new, out' = out ++ new ∧ ∀ D ∈ new, ∀ i, Prim (workRays P.mode D i)
  | .notIrrational => True
  | .abort => True

theorem loop_prim {n : ℕ} [NeZero n] (P : Params n) (N : ℕ)
    (ch : Fin n → Option (Cone n)) (hN : ∀ j c, ch j = some c → c.determinant.natAbs < N)
    (hrec : ∀ j c, ch j = some c → ∀ depth out md, PrimOut P out (dfs P c depth out md))
    (js : List (Fin n)) (depth : ℕ) (out : List (Cone n)) (md : ℕ) :
    PrimOut P out (loop P N ch hN js depth out md) := by
  induction js generalizing out md with
  | nil => rw [loop]; exact ⟨[], by simp, by simp⟩
  | cons j js ih =>
    rw [loop]
    split
    · trivial
    · rename_i c hc
      have h1 := hrec j c hc depth out md
      split
      · rename_i out1 md1 hr
        rw [hr] at h1
        obtain ⟨new1, rfl, hd1⟩ := h1
        have h2 := ih (out ++ new1) md1
        generalize loop P N ch hN js depth (out ++ new1) md1 = r at h2
        cases r with
        | done ok out2 md2 =>
          obtain ⟨new2, rfl, hd2⟩ := h2
          refine ⟨new1 ++ new2, by simp, fun D hD => ?_⟩
          rcases List.mem_append.mp hD with h | h
          · exact hd1 D h
          · exact hd2 D h
        | notIrrational => trivial
        | abort => trivial
      · exact h1

theorem dfs_prim {n : ℕ} [NeZero n] (P : Params n) (hP : P.ntl.Ok) (N : ℕ) :
    ∀ C : Cone n, C.determinant.natAbs = N → Wf C → (∀ i, Prim (C.rays i)) → ∀ depth out md,
      PrimOut P out (dfs P C depth out md) := by
  induction N using Nat.strong_induction_on with
  | _ N ih =>
    intro C hCN hC hp depth out md
    rw [dfs]
    split
    · exact ⟨[], by simp, by simp⟩
    · split
      · trivial
      · split
        · obtain ⟨F, hF, hdual, hdd⟩ := hC.facets
          unfold deliver
          cases hm : P.mode with
          | dual =>
            have hz : dualizeCone C = some (swapDual C F) := by unfold dualizeCone; rw [hF]
            simp only [hz]
            refine ⟨[swapDual C F], rfl, fun D hD i => ?_⟩
            rw [List.mem_singleton] at hD
            subst hD
            rw [hm]
            exact hp i
          | primal =>
            refine ⟨[C], rfl, fun D hD i => ?_⟩
            rw [List.mem_singleton] at hD
            subst hD
            rw [hm]
            exact hp i
        · split
          · trivial
          · rename_i Z ch hstep
            split
            · trivial
            · have hZ : Prim Z := by
                unfold barvinokStep at hstep
                split at hstep
                · cases hstep
                · rename_i Z' hZ'
                  cases hstep
                  exact chooseOmega_prim hP hC hZ'
              obtain ⟨hch, -, -⟩ := barvinokStep_spec hP hC hstep
              subst hch
              have hdec := step_decreases hstep
              refine loop_prim P _ _ hdec (fun j c hc depth out md => ?_) _ _ _ _
              have hj : detsOf C.rays Z j ≠ 0 := by
                intro hj; rw [childrenOf_none C Z j hj] at hc; cases hc
              obtain ⟨c', hc', hwf, hr, -⟩ := childrenOf_some C Z j hj
              rw [hc] at hc'
              cases hc'
              refine ih c.determinant.natAbs (hCN ▸ hdec j c hc) c rfl hwf (fun i => ?_) depth out md
              rw [hr]
              by_cases hij : i = j
              · subst hij; rw [updateRow_self]; exact hZ
              · rw [updateRow_ne hij]; exact hp i

/-- Facet divisors divide the determinant when the facets are primitive. -/
theorem div_dvd_of_prim {n : ℕ} (A F : Mat n) (d : Vec n)
    (h : ∀ i j, ∑ k, A i k * F j k = if i = j then -d j else 0) (hF : ∀ i, Prim (F i)) (j : Fin n) :
    d j ∣ A.det := by
  apply dvd_of_primitive (F j) (hF j)
  intro k
  have h1 : A * F.transpose = Matrix.diagonal fun i => -d i := by
    ext i j
    rw [mul_apply, Matrix.diagonal_apply]
    simp only [transpose_apply, h]
    by_cases hij : i = j
    · subst hij; simp
    · simp [hij]
  have h2 := congrArg (fun M => A.adjugate * M) h1
  simp only [← Matrix.mul_assoc, adjugate_mul] at h2
  have h3 := congrFun (congrFun h2 k) j
  rw [Matrix.smul_mul, Matrix.one_mul, Matrix.smul_apply, transpose_apply, mul_diagonal,
    smul_eq_mul] at h3
  rw [h3]
  exact Dvd.intro_left (-A.adjugate k j) (by ring)

end Verif.Barvinok
