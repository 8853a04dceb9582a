import Verif.Series.Tree
import Verif.PolySubst.Series

/-!
# The expression of a cone

Power series in `s` whose coefficients are power series in `t`: the value of the expression built by `ResidueFunction_Single_Cone` is the coefficient of
`s^order` of the numerator over the denominator.
-/

namespace Verif.Series

open PowerSeries
open Verif.PolySubst (Arr)
open Verif.ExpSubst (Fail)

/-- The entries `0, …, n` of an array of nodes have the values `F 0, …, F n`. -/
def Row (T : ℤ) (q : Pool) (n : ℕ) (A : ℕ → Ref) (F : ℕ → PowerSeries ℤ) : Prop := ∀ k ≤ n, Den T q (A k) (F k)

theorem Row.ext {d : ℕ} {T : ℤ} {p q : Pool} {n : ℕ} {A : ℕ → Ref} {F : ℕ → PowerSeries ℤ} (h : Row T p n A F) (he : Ext d T p q) : Row T q n A F :=
  fun k hk => he.den (h k hk)

/-! ### Binomial coefficients and monomials -/

theorem chooseLoop_eq (c : ℤ) (R k : ℕ) : chooseLoop c (R : ℤ) k = c * (R.choose k : ℤ) := by
  induction k with
  | zero => simp [chooseLoop]
  | succ k ih =>
    unfold chooseLoop
    rw [ih, mul_assoc, PolySubst.choose_step, ← mul_assoc]
    exact Int.mul_fdiv_cancel _ (by omega)

theorem tLoop_spec (d : ℕ) (T : ℤ) (coef : ℕ → ℤ) (x : ℤ) (hx : 0 ≤ x) (off : ℕ) (ks : List ℕ) (hks : (ks.map (· - off)).Nodup) (A : ℕ → Ref) (p : Pool) :
    Ext d T p (tLoop coef x off ks A p).2 ∧
    (∀ k ∈ ks, Den T (tLoop coef x off ks A p).2 ((tLoop coef x off ks A p).1 (k - off)) (C (coef k) * X ^ x.toNat)) ∧
    ∀ j, (∀ k ∈ ks, k - off ≠ j) → (tLoop coef x off ks A p).1 j = A j := by
  induction ks generalizing A p with
  | nil => exact ⟨.refl _ _ _, by simp, fun _ _ => rfl⟩
  | cons k ks ih =>
    rw [List.map_cons, List.nodup_cons] at hks
    obtain ⟨h1, h2, h3⟩ := ih hks.2 (Function.update A (k - off) (getT (coef k) x p).1) (getT (coef k) x p).2
    show Ext d T p (tLoop coef x off ks (Function.update A (k - off) (getT (coef k) x p).1) (getT (coef k) x p).2).2 ∧ _
    refine ⟨(getT_ext d T _ _ p).trans h1, fun k' hk' => ?_, fun j hj => ?_⟩
    · rcases List.mem_cons.1 hk' with rfl | hk'
      · show Den T (tLoop coef x off ks _ _).2 ((tLoop coef x off ks _ _).1 (k' - off)) _
        rw [h3 (k' - off) (fun i hi he => hks.1 (List.mem_map.2 ⟨i, hi, he⟩)), Function.update_self]
        exact h1.den (getT_den T _ _ hx p)
      · exact h2 k' hk'
    · show (tLoop coef x off ks _ _).1 j = _
      rw [h3 j fun i hi => hj i (List.mem_cons_of_mem _ hi), Function.update_of_ne (hj k List.mem_cons_self).symm]

/-! ### Numerator and generators -/

/-- `1 + s`. -/
noncomputable def onePlus : PowerSeries (PowerSeries ℤ) := 1 + X

theorem coeff_onePlus_pow (R k : ℕ) : coeff k (onePlus ^ R) = ((R.choose k : ℤ) : PowerSeries ℤ) := by
  induction R generalizing k with
  | zero =>
    rw [pow_zero, coeff_one]
    cases k <;> simp
  | succ R ih =>
    rw [pow_succ, onePlus, mul_add, mul_one, map_add, ← onePlus, ih]
    cases k with
    | zero => rw [coeff_zero_mul_X]; simp
    | succ k =>
      rw [coeff_succ_mul_X, ih, Nat.choose_succ_succ]
      push_cast
      ring

/-- `(1+s)^r t^x`. -/
noncomputable def numSeries (D : ConeData) : PowerSeries (PowerSeries ℤ) := onePlus ^ D.r.toNat * C (X ^ D.t.toNat)

theorem numeratorNodes_spec (d : ℕ) (T : ℤ) (order : ℕ) (D : ConeData) (hr : 0 ≤ D.r) (ht : 0 ≤ D.t) (A : ℕ → Ref) (p : Pool) :
    Ext d T p (numeratorNodes order D A p).2 ∧ Row T (numeratorNodes order D A p).2 order (numeratorNodes order D A p).1 fun k => coeff k (numSeries D) := by
  obtain ⟨h1, h2, h3⟩ := tLoop_spec d T (chooseLoop 1 D.r) D.t ht 0 (List.range' 1 order) (by simpa using List.nodup_range') (Function.update A 0
    (getT 1 D.t p).1) (getT 1 D.t p).2
  refine ⟨(getT_ext d T _ _ p).trans h1, fun k hk => ?_⟩
  have hc : coeff k (numSeries D) = C (chooseLoop 1 D.r k) * X ^ D.t.toNat := by
    obtain ⟨R, hR⟩ := Int.eq_ofNat_of_zero_le hr
    rw [numSeries, coeff_mul_C, coeff_onePlus_pow, hR, chooseLoop_eq, one_mul]
    simp
  beta_reduce
  rw [hc]
  cases k with
  | zero =>
    show Den T (tLoop _ _ _ _ _ _).2 ((tLoop _ _ _ _ _ _).1 0) _
    rw [h3 0 (by intro k hk; have := (List.mem_range'_1.1 hk).1; omega), Function.update_self]
    exact h1.den (getT_den T 1 D.t ht p)
  | succ k => exact h2 (k + 1) (List.mem_range'_1.2 ⟨by omega, by omega⟩)

/-- The generator `1 - (1+s)^r t^x` or `(1+s)^r - t^x`. -/
noncomputable def genSeries (g : Gen) : PowerSeries (PowerSeries ℤ) :=
  if g.rSubT then onePlus ^ g.r.toNat - C (X ^ g.t.toNat) else 1 - onePlus ^ g.r.toNat * C (X ^ g.t.toNat)

/-- The generator, divided by `s` if it is a pole. -/
noncomputable def redSeries (g : Gen) : PowerSeries (PowerSeries ℤ) :=
  if g.t ≠ 0 then genSeries g else PowerSeries.mk fun k => coeff (k + 1) (genSeries g)

/-- Exponents are nonnegative, and `r^R - t^T` only with `T` positive. -/
structure Gen.Simple (g : Gen) : Prop where
  r : 0 ≤ g.r
  t : 0 ≤ g.t
  sub : g.rSubT = true → g.t ≠ 0
  gen : g.t = 0 → g.r ≠ 0

theorem coeff_genSeries (g : Gen) (hg : g.Simple) (k : ℕ) : coeff (k + 1) (genSeries g) =
    C (chooseLoop (if g.rSubT then 1 else -1) g.r (k + 1)) * X ^ (if g.rSubT then 0 else g.t).toNat := by
  obtain ⟨R, hR⟩ := Int.eq_ofNat_of_zero_le hg.r
  rw [genSeries, hR, chooseLoop_eq]
  cases g.rSubT
  · simp only [Bool.false_eq_true, if_false, map_sub, coeff_mul_C, coeff_onePlus_pow, Int.toNat_natCast, coeff_one]
    simp
  · simp only [if_true, map_sub, coeff_onePlus_pow, Int.toNat_natCast, coeff_C]
    simp

theorem generatorNodes_spec (d : ℕ) (T : ℤ) (order : ℕ) (g : Gen) (hg : g.Simple) (A : ℕ → Ref) (p : Pool) (hw : 2 ≤ p.width) :
    ∃ A' q, generatorNodes order g A p = .ok (A', q) ∧ Ext d T p q ∧ Row T q order A' fun k => coeff k (redSeries g) := by
  have hx : 0 ≤ (if g.rSubT then 0 else g.t) := by split; exacts [le_rfl, hg.t]
  unfold generatorNodes redSeries
  by_cases ht : g.t ≠ 0
  · simp only [if_pos ht]
    have e1 := getT_ext d T 1 0 p
    have e2 := getT_ext d T (-1) g.t (getT 1 0 p).2
    obtain ⟨c, q, h1, h2, h3⟩ := mkP_add (d := d) (T := T) (p := (getT (-1) g.t (getT 1 0 p).2).2) 2
      [(getT 1 0 p).1, (getT (-1) g.t (getT 1 0 p).2).1] [C 1 * X ^ (0 : ℤ).toNat, C (-1) * X ^ g.t.toNat]
      (.cons (e2.den (getT_den T 1 0 le_rfl p)) (.cons (getT_den T (-1) g.t hg.t _) .nil)) rfl (by rw [e2.width, e1.width]; exact hw)
    rw [h1]
    obtain ⟨h4, h5, h6⟩ := tLoop_spec d T (chooseLoop (if g.rSubT then 1 else -1) g.r) (if g.rSubT then 0 else g.t) hx 0 (List.range' 1 order)
      (by simpa using List.nodup_range') (Function.update A 0 c) q
    refine ⟨_, _, rfl, (e1.trans e2).trans (h2.trans h4), fun k hk => ?_⟩
    cases k with
    | zero =>
      rw [h6 0 (by intro k hk; have := (List.mem_range'_1.1 hk).1; omega), Function.update_self]
      have : coeff 0 (genSeries g) = [C 1 * X ^ (0 : ℤ).toNat, C (-1) * X ^ g.t.toNat].sum := by
        rw [genSeries]
        have h0 : constantCoeff (R := PowerSeries ℤ) onePlus = 1 := by simp [onePlus]
        cases g.rSubT <;> simp [h0, sub_eq_add_neg]
      beta_reduce
      rw [this]
      exact h4.den h3
    | succ k =>
      beta_reduce
      rw [coeff_genSeries g hg]
      exact h5 (k + 1) (List.mem_range'_1.2 ⟨by omega, by omega⟩)
  · simp only [if_neg ht]
    obtain ⟨h4, h5, h6⟩ := tLoop_spec d T (chooseLoop (if g.rSubT then 1 else -1) g.r) (if g.rSubT then 0 else g.t) hx 1 (List.range' 1 (order + 1))
      (by
        refine List.Nodup.map_on ?_ List.nodup_range'
        intro x hx y hy h
        have := (List.mem_range'_1.1 hx).1
        have := (List.mem_range'_1.1 hy).1
        omega) A p
    refine ⟨_, _, rfl, h4, fun k hk => ?_⟩
    beta_reduce
    rw [coeff_mk, coeff_genSeries g hg]
    exact h5 (k + 1) (List.mem_range'_1.2 ⟨by omega, by omega⟩)

/-! ### Products -/

section
variable {d : ℕ} {T : ℤ}

theorem productNodes_spec (cur res : ℕ → Ref) (F G : ℕ → PowerSeries ℤ) (r : ℕ) (fs : List ℕ) (hfs : ∀ f ∈ fs, f ≤ r) (out : List Ref)
    (vs : List (PowerSeries ℤ)) (p : Pool) (hw : 2 ≤ p.width) (hc : Row T p r cur F) (hr : Row T p r res G) (ho : List.Forall₂ (Den T p) out vs) :
    ∃ cs q, productNodes cur res r fs out p = .ok (cs, q) ∧ Ext d T p q ∧ List.Forall₂ (Den T q) cs (vs ++ fs.map fun f => F f * G (r - f)) := by
  induction fs generalizing out vs p with
  | nil => exact ⟨out, p, rfl, .refl _ _ _, by simpa using ho⟩
  | cons f fs ih =>
    have hf := hfs f List.mem_cons_self
    obtain ⟨c, q, h1, h2, h3⟩ := mkP_mul (d := d) (T := T) (p := p) 2 [cur f, res (r - f)] [F f, G (r - f)]
      (.cons (hc f hf) (.cons (hr (r - f) (Nat.sub_le _ _)) .nil)) (by simp) rfl hw
    obtain ⟨cs, q', h4, h5, h6⟩ := ih (fun f hf => hfs f (List.mem_cons_of_mem _ hf)) (out ++ [c]) (vs ++ [F f * G (r - f)]) q (by rw [h2.width]; exact hw)
      (hc.ext h2) (hr.ext h2) (List.rel_append (ho.imp fun _ _ h => h2.den h) (.cons (by simpa using h3) .nil))
    refine ⟨cs, q', ?_, h2.trans h5, by simpa using h6⟩
    unfold productNodes
    rw [h1]
    exact h4

theorem shmushLoop_spec (cur : ℕ → Ref) (F G : ℕ → PowerSeries ℤ) (order n : ℕ) (hn : n ≤ order) (res : ℕ → Ref) (p : Pool) (hw : 2 ≤ p.width)
    (hw' : order + 1 ≤ p.width) (hc : Row T p order cur F) (hr : Row T p n res G) (V : ℕ → PowerSeries ℤ)
    (hV : ∀ r, V r = ((List.range (r + 1)).map fun f => F f * G (r - f)).sum) (hd : ∀ k, n < k → k ≤ order → Den T p (res k) (V k)) :
    ∃ A q, shmushLoop cur ((List.range' 1 n).reverse) res p = .ok (A, q) ∧ Ext d T p q ∧ (∀ k, 1 ≤ k → k ≤ order → Den T q (A k) (V k)) ∧ A 0 = res 0 := by
  induction n generalizing res p with
  | zero => exact ⟨res, p, rfl, .refl _ _ _, fun k h1 h2 => hd k h1 h2, rfl⟩
  | succ n ih =>
    rw [List.range'_concat, List.reverse_append, List.reverse_singleton, List.singleton_append, mul_comm 1 n, mul_one, add_comm 1 n]
    obtain ⟨cs, q1, h1, h2, h3⟩ := productNodes_spec (d := d) (T := T) cur res F G (n + 1) (List.range (n + 1 + 1))
      (fun f hf => by have := List.mem_range.1 hf; omega) [] [] p hw (fun k hk => hc k (by omega)) hr .nil
    obtain ⟨c, q2, h4, h5, h6⟩ := mkP_add (d := d) (T := T) (p := q1) (n + 1 + 1) cs _ h3 (by simp) (by rw [h2.width]; simp; omega)
    have h25 := h2.trans h5
    obtain ⟨A, q3, h7, h8, h9, h10⟩ := ih (by omega) (Function.update res (n + 1) c) q2 (by rw [h25.width]; exact hw) (by rw [h25.width]; exact hw')
      (hc.ext h25) (fun k hk => by rw [Function.update_of_ne (by omega)]; exact h25.den (hr k (by omega))) (fun k h1 h2 => by
        by_cases hk : k = n + 1
        · subst hk
          rw [Function.update_self, hV]
          simpa using h6
        · rw [Function.update_of_ne hk]
          exact h25.den (hd k (by omega) h2))
    refine ⟨A, q3, ?_, h25.trans h8, h9, by rw [h10, Function.update_of_ne (by omega)]⟩
    unfold shmushLoop
    rw [h1]
    dsimp only
    rw [h4]
    exact h7

theorem shmush_spec (cur res : ℕ → Ref) (f g : PowerSeries (PowerSeries ℤ)) (order : ℕ) (p : Pool) (hw : 2 ≤ p.width) (hw' : order + 1 ≤ p.width)
    (hc : Row T p order cur fun k => coeff k f) (hr : Row T p order res fun k => coeff k g) :
    ∃ A q, shmush order cur res p = .ok (A, q) ∧ Ext d T p q ∧ Row T q order A fun k => coeff k (f * g) := by
  have hV : ∀ r, coeff r (f * g) = ((List.range (r + 1)).map fun k => coeff k f * coeff (r - k) g).sum := by
    intro r
    rw [coeff_mul, Finset.Nat.sum_antidiagonal_eq_sum_range_succ_mk, ← List.sum_toFinset _ List.nodup_range, List.toFinset_range]
  obtain ⟨A, q1, h1, h2, h3, h4⟩ := shmushLoop_spec (d := d) (T := T) cur _ _ order order le_rfl res p hw hw' hc hr _ hV (fun k h1 h2 => by omega)
  obtain ⟨c, q, h5, h6, h7⟩ := mkP_mul (d := d) (T := T) (p := q1) 2 [cur 0, A 0] [coeff 0 f, coeff 0 g]
    (.cons (h2.den (hc 0 (Nat.zero_le _))) (.cons (by rw [h4]; exact h2.den (hr 0 (Nat.zero_le _))) .nil)) (by simp) rfl (by rw [h2.width]; exact hw)
  refine ⟨Function.update A 0 c, q, ?_, h2.trans h6, fun k hk => ?_⟩
  · unfold shmush
    rw [h1]
    dsimp only
    rw [h5]
  · by_cases hk0 : k = 0
    · subst hk0
      rw [Function.update_self]
      simpa using h7
    · rw [Function.update_of_ne hk0]
      exact h6.den (h3 k (by omega) hk)

theorem denominatorLoop_spec (order : ℕ) (gs : List Gen) (hgs : ∀ g ∈ gs, g.Simple) (cur res : ℕ → Ref) (f : PowerSeries (PowerSeries ℤ)) (p : Pool)
    (hw : 2 ≤ p.width) (hw' : order + 1 ≤ p.width) (hr : Row T p order res fun k => coeff k f) :
    ∃ A q, denominatorLoop order gs cur res p = .ok (A, q) ∧ Ext d T p q ∧ Row T q order A fun k => coeff k ((gs.map redSeries).prod * f) := by
  induction gs generalizing cur res f p with
  | nil => exact ⟨res, p, rfl, .refl _ _ _, by simpa using hr⟩
  | cons g gs ih =>
    obtain ⟨A1, q1, h1, h2, h3⟩ := generatorNodes_spec d T order g (hgs g List.mem_cons_self) cur p hw
    obtain ⟨A2, q2, h4, h5, h6⟩ := shmush_spec (d := d) (T := T) A1 res _ f order q1 (by rw [h2.width]; exact hw) (by rw [h2.width]; exact hw') h3 (hr.ext h2)
    have h25 := h2.trans h5
    obtain ⟨A3, q3, h7, h8, h9⟩ := ih (fun g hg => hgs g (List.mem_cons_of_mem _ hg)) A1 A2 _ q2 (by rw [h25.width]; exact hw) (by rw [h25.width]; exact hw')
      h6
    refine ⟨A3, q3, ?_, h25.trans h8, ?_⟩
    · unfold denominatorLoop
      rw [h1]
      dsimp only
      rw [h4]
      exact h7
    · rw [List.map_cons, List.prod_cons, mul_comm (redSeries g), mul_assoc]
      exact h9

/-! ### The quotient -/

/-- The numerators of the coefficients of a quotient: `N_k = b_0^k a_k - ∑_{j=1}^k b_0^{j-1} b_j N_{k-j}`. -/
noncomputable def recN (a b : ℕ → PowerSeries ℤ) : ℕ → PowerSeries ℤ
  | k => b 0 ^ k * a k - ∑ j : Fin k, b 0 ^ (j : ℕ) * b (j + 1) * recN a b (k - 1 - j)
  decreasing_by have := j.2; omega

/-- The value of the `j`th term. -/
noncomputable def termN (a b : ℕ → PowerSeries ℤ) (k j : ℕ) : PowerSeries ℤ :=
  if j = 0 then b 0 ^ k * a k else -(b 0 ^ (j - 1) * b j * recN a b (k - j))

theorem recN_eq (a b : ℕ → PowerSeries ℤ) (k : ℕ) : recN a b k = ((List.range (k + 1)).map (termN a b k)).sum := by
  rw [recN, ← List.sum_toFinset _ List.nodup_range, List.toFinset_range, Finset.sum_range_succ', Finset.sum_fin_eq_sum_range, sub_eq_add_neg, add_comm,
    ← Finset.sum_neg_distrib]
  congr 1
  · refine Finset.sum_congr rfl fun j hj => ?_
    have := Finset.mem_range.1 hj
    rw [dif_pos this, termN, if_neg (by omega), Nat.add_sub_cancel, show k - 1 - j = k - (j + 1) by omega]

theorem quotientTerm_spec (minus : Ref) (a b N : ℕ → Ref) (F G : ℕ → PowerSeries ℤ) (k j : ℕ) (hk : 0 < k) (hj : j ≤ k) (p : Pool)
    (hw : 3 ≤ p.width) (hw' : 2 ≤ k → 4 ≤ p.width) (hm : Den T p minus (-1)) (ha : Den T p (a k) (F k)) (hb : Row T p k b G)
    (hN : ∀ i < k, Den T p (N i) (recN F G i)) : Built d T p (quotientTerm minus a b N k j p) (termN F G k j) := by
  unfold quotientTerm termN
  by_cases h0 : j = 0
  · rw [if_pos h0, if_pos h0]
    obtain ⟨c, q, h1, h2, h3⟩ := mkP_exp (d := d) (T := T) (p := p) (b 0) k (by omega) _ (hb 0 (Nat.zero_le _)) (by omega)
    rw [h1]
    obtain ⟨c', q', h4, h5, h6⟩ := mkP_mul (d := d) (T := T) (p := q) 2 [c, a k] [G 0 ^ k, F k] (.cons h3 (.cons (h2.den ha) .nil)) (by simp) rfl
      (by rw [h2.width]; simp; omega)
    exact ⟨c', q', h4, h2.trans h5, by simpa using h6⟩
  · rw [if_neg h0, if_neg h0]
    by_cases h1 : j = 1
    · subst h1
      rw [if_pos rfl]
      obtain ⟨c', q', h4, h5, h6⟩ := mkP_mul (d := d) (T := T) (p := p) 3 [minus, b 1, N (k - 1)] [-1, G 1, recN F G (k - 1)]
        (.cons hm (.cons (hb 1 (by omega)) (.cons (hN (k - 1) (by omega)) .nil))) (by simp) rfl (by simpa using hw)
      exact ⟨c', q', h4, h5, by simpa using h6⟩
    · rw [if_neg h1]
      by_cases h2 : j = 2
      · subst h2
        rw [if_pos rfl]
        obtain ⟨c', q', h4, h5, h6⟩ := mkP_mul (d := d) (T := T) (p := p) 4 [minus, b 0, b 2, N (k - 2)] [-1, G 0, G 2, recN F G (k - 2)]
          (.cons hm (.cons (hb 0 (by omega)) (.cons (hb 2 (by omega)) (.cons (hN (k - 2) (by omega)) .nil)))) (by simp) rfl (by simpa using hw' (by omega))
        exact ⟨c', q', h4, h5, by simpa [mul_assoc] using h6⟩
      · rw [if_neg h2]
        obtain ⟨c, q, h1, h2, h3⟩ := mkP_exp (d := d) (T := T) (p := p) (b 0) (j - 1) (by omega) _ (hb 0 (Nat.zero_le _)) (by omega)
        rw [h1]
        obtain ⟨c', q', h4, h5, h6⟩ := mkP_mul (d := d) (T := T) (p := q) 4 [minus, c, b j, N (k - j)] [-1, G 0 ^ (j - 1), G j, recN F G (k - j)]
          (.cons (h2.den hm) (.cons h3 (.cons (h2.den (hb j hj)) (.cons (h2.den (hN (k - j) (by omega))) .nil)))) (by simp) rfl
          (by rw [h2.width]; simpa using hw' (by omega))
        exact ⟨c', q', h4, h2.trans h5, by simpa [mul_assoc] using h6⟩

theorem quotientTerms_spec (minus : Ref) (a b N : ℕ → Ref) (F G : ℕ → PowerSeries ℤ) (k : ℕ) (hk : 0 < k) (js : List ℕ) (hjs : ∀ j ∈ js, j ≤ k)
    (out : List Ref) (vs : List (PowerSeries ℤ)) (p : Pool)
    (hw : 3 ≤ p.width) (hw' : 2 ≤ k → 4 ≤ p.width) (hm : Den T p minus (-1)) (ha : Den T p (a k) (F k)) (hb : Row T p k b G)
    (hN : ∀ i < k, Den T p (N i) (recN F G i)) (ho : List.Forall₂ (Den T p) out vs) :
    ∃ cs q, quotientTerms minus a b N k js out p = .ok (cs, q) ∧ Ext d T p q ∧ List.Forall₂ (Den T q) cs (vs ++ js.map (termN F G k)) := by
  induction js generalizing out vs p with
  | nil => exact ⟨out, p, rfl, .refl _ _ _, by simpa using ho⟩
  | cons j js ih =>
    obtain ⟨c, q, h1, h2, h3⟩ := quotientTerm_spec (d := d) (T := T) minus a b N F G k j hk (hjs j List.mem_cons_self) p hw hw' hm ha hb hN
    obtain ⟨cs, q', h4, h5, h6⟩ := ih (fun j hj => hjs j (List.mem_cons_of_mem _ hj)) (out ++ [c]) (vs ++ [termN F G k j]) q (by rw [h2.width]; exact hw)
      (by rw [h2.width]; exact hw') (h2.den hm) (h2.den ha) (hb.ext h2) (fun i hi => h2.den (hN i hi))
      (List.rel_append (ho.imp fun _ _ h => h2.den h) (.cons h3 .nil))
    refine ⟨cs, q', ?_, h2.trans h5, by simpa using h6⟩
    unfold quotientTerms
    rw [h1]
    exact h4

theorem quotientLoop_spec (minus : Ref) (a b : ℕ → Ref) (F G : ℕ → PowerSeries ℤ) (order : ℕ) (n : ℕ) :
    ∀ (s : ℕ) (_ : 0 < s) (_ : s + n = order + 1) (N : ℕ → Ref) (p : Pool)
    (_ : 3 ≤ p.width) (_ : 2 ≤ order → 4 ≤ p.width) (_ : order + 1 ≤ p.width) (_ : Den T p minus (-1)) (_ : Row T p order a F) (_ : Row T p order b G)
    (_ : ∀ i < s, Den T p (N i) (recN F G i)),
    ∃ A q, quotientLoop minus a b (List.range' s n) N p = .ok (A, q) ∧ Ext d T p q ∧ Row T q order A (recN F G) := by
  induction n with
  | zero => intro s hs hn N p _ _ _ _ _ _ hN; exact ⟨N, p, rfl, .refl _ _ _, fun k hk => hN k (by omega)⟩
  | succ n ih =>
    intro s hs hn N p hw hw4 hw' hm ha hb hN
    obtain ⟨cs, q1, h1, h2, h3⟩ := quotientTerms_spec (d := d) (T := T) minus a b N F G s hs (List.range (s + 1))
      (fun f hf => by have := List.mem_range.1 hf; omega) [] [] p hw (fun h => hw4 (by omega)) hm (ha s (by omega)) (fun k hk => hb k (by omega)) hN .nil
    obtain ⟨c, q2, h4, h5, h6⟩ := mkP_add (d := d) (T := T) (p := q1) (s + 1) cs _ h3 (by simp) (by rw [h2.width]; simp; omega)
    have h25 := h2.trans h5
    obtain ⟨A, q3, h7, h8, h9⟩ := ih (s + 1) (by omega) (by omega) (Function.update N s c) q2 (by rw [h25.width]; exact hw) (by rw [h25.width]; exact hw4)
      (by rw [h25.width]; exact hw') (h25.den hm) (ha.ext h25) (hb.ext h25) (fun i hi => by
        by_cases his : i = s
        · subst his
          rw [Function.update_self, recN_eq]
          simpa using h6
        · rw [Function.update_of_ne his]
          exact h25.den (hN i (by omega)))
    refine ⟨A, q3, ?_, h25.trans h8, h9⟩
    rw [List.range'_succ]
    unfold quotientLoop
    rw [h1]
    dsimp only
    rw [h4]
    exact h7

theorem finalNode_spec (minus : Ref) (sign : ℤ) (order : ℕ) (b N : ℕ → Ref) (f g : PowerSeries ℤ) (p : Pool) (hw : 3 ≤ p.width) (hm : Den T p minus (-1))
    (hb : Den T p (b 0) g) (hN : Den T p (N order) f) (hg : constantCoeff g ≠ 0) : Built d T p (finalNode minus sign order b N p)
    (if sign = 1 then divSeries T f (g ^ (order + 1)) else -divSeries T f (g ^ (order + 1))) := by
  unfold finalNode
  obtain ⟨c, q, h1, h2, h3⟩ := mkP_exp (d := d) (T := T) (p := p) (b 0) (order + 1) (by omega) _ hb (by omega)
  rw [h1]
  obtain ⟨c', q', h4, h5, h6⟩ := mkP_div (d := d) (T := T) (p := q) (N order) c f _ (h2.den hN) h3 (by rw [map_pow]; exact pow_ne_zero _ hg)
    (by rw [h2.width]; omega)
  dsimp only
  rw [h4]
  dsimp only
  by_cases hs : sign = 1
  · rw [if_pos hs, if_pos hs]
    exact ⟨c', q', rfl, h2.trans h5, h6⟩
  · rw [if_neg hs, if_neg hs]
    have h25 := h2.trans h5
    obtain ⟨c3, q3, h7, h8, h9⟩ := mkP_mul (d := d) (T := T) (p := q') 2 [minus, c'] [-1, divSeries T f (g ^ (order + 1))]
      (.cons (h25.den hm) (.cons h6 .nil)) (by simp) rfl (by rw [h25.width]; simp; omega)
    exact ⟨c3, q3, h7, h25.trans h8, by simpa using h9⟩

end

/-- `f` and `g` over the rational numbers. -/
noncomputable def toQQ : PowerSeries (PowerSeries ℤ) →+* PowerSeries (PowerSeries ℚ) := PowerSeries.map (PowerSeries.map (Int.castRingHom ℚ))

theorem coeff_toQQ (f : PowerSeries (PowerSeries ℤ)) (k : ℕ) : coeff k (toQQ f) = toQ (coeff k f) := by
  rw [toQQ, coeff_map]
  rfl

theorem recN_quot (a b : PowerSeries (PowerSeries ℤ)) (q : PowerSeries (PowerSeries ℚ)) (hq : toQQ b * q = toQQ a) (k : ℕ) :
    toQ (recN (fun k => coeff k a) (fun k => coeff k b) k) = toQ (coeff 0 b) ^ (k + 1) * coeff k q := by
  induction k using Nat.strong_induction_on with
  | _ k ih =>
    have hk : coeff k (toQQ b * q) = toQ (coeff k a) := by rw [hq, coeff_toQQ]
    rw [coeff_mul, Finset.Nat.sum_antidiagonal_eq_sum_range_succ_mk, Finset.sum_range_succ'] at hk
    simp only [coeff_toQQ, Nat.sub_zero] at hk
    rw [recN, map_sub, map_mul, map_pow, ← hk, map_sum, mul_add, Finset.mul_sum, Finset.sum_fin_eq_sum_range]
    have : ∀ j ∈ Finset.range k, (if h : j < k then toQ ((coeff 0 b) ^ j * coeff (j + 1) b * recN (fun k => coeff k a) (fun k => coeff k b) (k - 1 - j)) else 0) =
        toQ (coeff 0 b) ^ k * (toQ (coeff (j + 1) b) * coeff (k - (j + 1)) q) := by
      intro j hj
      have hj := Finset.mem_range.1 hj
      rw [dif_pos hj, map_mul, map_mul, map_pow, ih (k - 1 - j) (by omega), show k - 1 - j + 1 = k - j by omega, show k - 1 - j = k - (j + 1) by omega,
        ← Nat.sub_add_cancel (Nat.le_of_lt hj)]
      rw [show k - j + j - j = k - j by omega, pow_add]
      rw [show k - j + j = k by omega]
      ring
    rw [Finset.sum_congr rfl this]
    ring

/-- The value of the denominator at `s = 0`, `t = 0`. -/
theorem constantCoeff_red (g : Gen) (hg : g.Simple) : constantCoeff (coeff 0 (redSeries g)) ≠ 0 := by
  have h0 : constantCoeff (R := PowerSeries ℤ) onePlus = 1 := by simp [onePlus]
  unfold redSeries
  by_cases ht : g.t ≠ 0
  · rw [if_pos ht, genSeries]
    have : g.t.toNat ≠ 0 := by have := hg.t; omega
    cases g.rSubT <;> simp [h0, this]
  · rw [if_neg ht, coeff_mk, coeff_genSeries g hg]
    have ht' : g.t = 0 := by simpa using ht
    have hs : g.rSubT = false := by
      cases h : g.rSubT
      · rfl
      · exact absurd ht' (hg.sub h)
    rw [hs, ht']
    simp [chooseLoop]
    have := hg.gen ht'
    exact_mod_cast this

theorem constantCoeff_reds (gs : List Gen) (hgs : ∀ g ∈ gs, g.Simple) : constantCoeff (coeff 0 (gs.map redSeries).prod) ≠ 0 := by
  induction gs with
  | nil => simp
  | cons g gs ih =>
    rw [List.map_cons, List.prod_cons, coeff_zero_eq_constantCoeff_apply, map_mul, map_mul,
      ← coeff_zero_eq_constantCoeff_apply (redSeries g), ← coeff_zero_eq_constantCoeff_apply (gs.map redSeries).prod]
    exact mul_ne_zero (constantCoeff_red g (hgs g List.mem_cons_self)) (ih fun g hg => hgs g (List.mem_cons_of_mem _ hg))

/-- **The expression of a cone.** -/
theorem coneExpression_spec (d : ℕ) (T : ℤ) (junk : ℕ → Ref) (order : ℕ) (D : ConeData) (hr : 0 ≤ D.r) (ht : 0 ≤ D.t) (hgs : ∀ g ∈ D.gens, g.Simple)
    (hne : D.gens ≠ []) (p : Pool) (hw : 3 ≤ p.width) (hw4 : 2 ≤ order → 4 ≤ p.width) (hw' : order + 1 ≤ p.width) (q : PowerSeries (PowerSeries ℚ))
    (hq : toQQ (D.gens.map redSeries).prod * q = toQQ (numSeries D)) :
    Built d T p (coneExpression junk order D p) (if D.sign = 1 then PowerSeries.mk fun k => ⌊(T : ℚ) * coeff k (coeff order q)⌋
      else -PowerSeries.mk fun k => ⌊(T : ℚ) * coeff k (coeff order q)⌋) := by
  have hb0 := constantCoeff_reds D.gens hgs
  unfold coneExpression
  have e1 := getT_ext d T (-1) 0 p
  have m1 := getT_den T (-1) 0 le_rfl p
  rw [show C (-1 : ℤ) * X ^ (0 : ℤ).toNat = -1 by simp] at m1
  obtain ⟨e2, r2⟩ := numeratorNodes_spec d T order D hr ht junk (getT (-1) 0 p).2
  dsimp only
  generalize hD : D.gens = gens at *
  cases gens with
  | nil => exact absurd rfl hne
  | cons g gs =>
    dsimp only
    have e12 := e1.trans e2
    obtain ⟨A1, q1, h1, h2, h3⟩ := generatorNodes_spec d T order g (hgs g List.mem_cons_self) junk (numeratorNodes order D junk (getT (-1) 0 p).2).2
      (by rw [e12.width]; omega)
    rw [h1]
    dsimp only
    have e13 := e12.trans h2
    obtain ⟨A2, q2, h4, h5, h6⟩ := denominatorLoop_spec (d := d) (T := T) order gs (fun g hg => hgs g (List.mem_cons_of_mem _ hg)) junk A1 _ q1
      (by rw [e13.width]; omega) (by rw [e13.width]; omega) h3
    rw [h4]
    dsimp only
    have e14 := e13.trans h5
    rw [mul_comm, ← List.prod_cons, ← List.map_cons (f := redSeries)] at h6
    have e24 := (e2.trans h2).trans h5
    have rN := (r2.ext h2).ext h5
    obtain ⟨A3, q3, h7, h8, h9⟩ := quotientLoop_spec (d := d) (T := T) (getT (-1) 0 p).1 (numeratorNodes order D junk (getT (-1) 0 p).2).1 A2 _ _ order order 1
      Nat.one_pos (by omega) (Function.update junk 0 ((numeratorNodes order D junk (getT (-1) 0 p).2).1 0)) q2 (by rw [e14.width]; exact hw)
      (by rw [e14.width]; exact hw4) (by rw [e14.width]; exact hw') (e24.den m1) rN h6 (fun i hi => by
        have : i = 0 := by omega
        subst this
        rw [Function.update_self, recN]
        simpa using rN 0 (Nat.zero_le _))
    rw [h7]
    dsimp only
    have e15 := e14.trans h8
    obtain ⟨c, q4, h10, h11, h12⟩ := finalNode_spec (d := d) (T := T) (getT (-1) 0 p).1 D.sign order A2 A3 _ _ q3 (by rw [e15.width]; exact hw)
      ((e24.trans h8).den m1) (h8.den (h6 0 (Nat.zero_le _))) (h9 order le_rfl) hb0
    refine ⟨c, q4, h10, e15.trans h11, ?_⟩
    have hdiv : divSeries T (recN (fun k => coeff k (numSeries D)) (fun k => coeff k ((g :: gs).map redSeries).prod) order)
        ((coeff 0 ((g :: gs).map redSeries).prod) ^ (order + 1)) = PowerSeries.mk fun k => ⌊(T : ℚ) * coeff k (coeff order q)⌋ := by
      unfold divSeries
      congr 1
      funext k
      rw [recN_quot (numSeries D) _ q hq, map_pow, mul_right_comm, PowerSeries.mul_inv_cancel, one_mul]
      rw [map_pow]
      refine pow_ne_zero _ ?_
      rw [← coeff_zero_eq_constantCoeff_apply, coeff_toQ, coeff_zero_eq_constantCoeff_apply]
      exact_mod_cast hb0
    rw [← hdiv]
    exact h12

end Verif.Series
