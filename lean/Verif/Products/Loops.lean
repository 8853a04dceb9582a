import Verif.Products.Store
import Verif.Trie.DecProps

/-! The loops of `integrateLinFormProducts`. -/

namespace Verif.Products

open Verif.Trie Verif.Measure

/-- the monomial for the counter -/
def monoTerm (tv : List ℤ) (counter : List ℕ) : Term ℚ := ⟨coefOf tv counter, counter.map fun c : ℕ => (c : ℤ), -1⟩

theorem expandLoop_eq (Ms : List ℕ) (tv : List ℤ) : ∀ (k j : ℕ) (s : Sum ℚ), j + k < total Ms →
    expandLoop Ms tv k (digits Ms j) s = insertAll s ((List.range k).map fun i => monoTerm tv (digits Ms (j + 1 + i))) := by
  intro k
  induction k with
  | zero => intro j s _; rfl
  | succ k ih =>
    intro j s h
    rw [expandLoop, bumpC_digits Ms j (by omega)]
    simp only
    rw [List.range_succ_eq_map, List.map_cons, List.map_map]
    have : insertAll s (monoTerm tv (digits Ms (j + 1 + 0)) :: (List.range k).map ((fun i => monoTerm tv (digits Ms (j + 1 + i))) ∘ Nat.succ)) =
        (insertSum s (monoTerm tv (digits Ms (j + 1 + 0)))).bind fun s' =>
          insertAll s' ((List.range k).map ((fun i => monoTerm tv (digits Ms (j + 1 + i))) ∘ Nat.succ)) := by
      rw [show ∀ (x : Term ℚ) l, x :: l = [x] ++ l from fun _ _ => rfl, insertAll_append]
      rfl
    rw [this, Nat.add_zero]
    change (match insertSum s (monoTerm tv (digits Ms (j + 1))) with
      | none => none
      | some s => expandLoop Ms tv k (digits Ms (j + 1)) s) = _
    cases insertSum s (monoTerm tv (digits Ms (j + 1))) with
    | none => rfl
    | some s' =>
      simp only [Option.bind_some]
      rw [ih (j + 1) s' (by omega)]
      congr 1
      apply List.map_congr_left
      intro i _
      simp only [Function.comp]
      congr 2
      omega

theorem foldl_total (Ms : List ℕ) : Ms.foldl (fun a m => a * (m + 1)) 1 = total Ms := by
  have : ∀ a, Ms.foldl (fun a m => a * (m + 1)) a = a * total Ms := by
    induction Ms with
    | nil => intro a; simp [total]
    | cons M Ms ih => intro a; rw [List.foldl_cons, ih]; simp [total, mul_assoc]
  rw [this, one_mul]

theorem coefLoop_zero (Ms : List ℕ) (tv : List ℤ) (a : ℚ) : coefLoop 0 tv (Ms.map fun _ => 0) a = a := by
  induction Ms generalizing tv a with
  | nil => cases tv <;> rfl
  | cons M Ms ih =>
    cases tv with
    | nil => rfl
    | cons t tv =>
      rw [List.map_cons, coefLoop]
      simp only [Nat.sub_zero, pow_zero, Int.cast_one, mul_one]
      have : Latte.Residue.aChooseB ((0 : ℕ) : ℤ) ((0 : ℕ) : ℤ) = 1 := by rw [Latte.Residue.c27_choose_exact]; rfl
      rw [this, Int.cast_one, mul_one, ih]

theorem coefOf_zero (Ms : List ℕ) (tv : List ℤ) : coefOf tv (Ms.map fun _ => 0) = 1 := by
  unfold coefOf
  have hs : (Ms.map fun _ => 0).foldl (fun a c => a + c) 0 = 0 := by
    induction Ms with
    | nil => rfl
    | cons M Ms ih => simpa using ih
  simp only [hs]
  rw [coefLoop_zero]
  simp

theorem expand_eq (Ms : List ℕ) (tv : List ℤ) :
    expand Ms tv = insertAll (emptySum ℚ Ms.length) ((List.range (total Ms)).map fun i => monoTerm tv (digits Ms i)) := by
  have ht := total_pos Ms
  unfold expand
  rw [foldl_total]
  obtain ⟨k, hk⟩ : ∃ k, total Ms = k + 1 := ⟨total Ms - 1, by omega⟩
  rw [hk, Nat.add_sub_cancel, List.range_succ_eq_map, List.map_cons, List.map_map]
  have h0 : monoTerm tv (digits Ms 0) = ⟨1, Ms.map fun _ => 0, -1⟩ := by
    unfold monoTerm
    rw [digits_zero, coefOf_zero]
    simp
  rw [h0, show ∀ (x : Term ℚ) l, x :: l = [x] ++ l from fun _ _ => rfl, insertAll_append]
  have h1 : insertAll (emptySum ℚ Ms.length) [⟨1, Ms.map fun _ => 0, -1⟩] = insertSum ⟨0, Ms.length, none⟩ ⟨1, Ms.map fun _ => 0, -1⟩ := rfl
  rw [h1]
  congr 1
  funext s
  rw [← digits_zero, expandLoop_eq Ms tv k 0 s (by omega)]
  congr 1
  apply List.map_congr_left
  intro i _
  simp only [Function.comp]
  congr 2
  omega

theorem ofFn_getD {α : Type} (l : List α) (d : α) : List.ofFn (fun j : Fin l.length => l.getD j d) = l := by
  apply List.ext_getElem
  · simp
  · intro i h1 h2
    simp

/-- coefficients of the expansion -/
theorem toPoly_expand (Ms : List ℕ) (a : Fin Ms.length → ℤ) (N : ℕ) (hN : deg (expOf Ms) ≤ N) :
    Agrees (expOf Ms) (toPoly Ms.length ((List.range (total Ms)).map fun i => monoTerm (List.ofFn fun j => -a j) (digits Ms i)))
      (geo N fun j => (a j : ℚ)) := by
  classical
  let ex : ℕ → (Fin Ms.length →₀ ℕ) := fun i => Finsupp.equivFunOnFinite.symm fun j => (digits Ms i).getD j 0
  refine ⟨∑ i ∈ Finset.range (total Ms), MvPolynomial.monomial (ex i) (coefOf (List.ofFn fun j => -a j) (digits Ms i)), ?_, ?_⟩
  · unfold toPoly
    rw [List.map_map, map_sum, Finset.sum_range, ← List.sum_ofFn]
    congr 1
    apply List.ext_getElem
    · simp
    · intro i h1 h2
      simp only [List.getElem_map, List.getElem_range, List.getElem_ofFn, Function.comp, monoTerm, emb_monomial]
      congr 1
      funext j
      unfold vecOf expHom
      simp only [AddMonoidHom.coe_mk, ZeroHom.coe_mk, ex, Finsupp.equivFunOnFinite_symm_apply_apply]
      have hj : (j : ℕ) < (digits Ms i).length := by rw [digits_length]; exact j.2
      rw [List.getD_eq_getElem _ _ (by simpa using hj), List.getD_eq_getElem _ _ hj, List.getElem_map]
  · intro n hn
    rw [coeff_geo N _ n (le_trans (Finset.sum_le_sum fun j _ => hn j) hN)]
    have hle : ∀ i, (List.ofFn fun j => n j).getD i 0 ≤ Ms.getD i 0 := by
      intro i
      by_cases hi : i < Ms.length
      · rw [List.getD_eq_getElem _ _ (by simpa using hi), List.getElem_ofFn]
        have := hn ⟨i, hi⟩
        simpa [expOf, hi] using this
      · rw [List.getD_eq_default _ _ (by simpa using hi)]; exact Nat.zero_le _
    obtain ⟨j, hj, hd, hu⟩ := digits_unique Ms (List.ofFn fun j => n j) (by simp) hle
    rw [MvPolynomial.coeff_sum]
    simp_rw [MvPolynomial.coeff_monomial]
    rw [Finset.sum_eq_single j]
    · have he : ex j = n := by
        ext i
        simp [ex, hd]
      rw [if_pos he, hd, coefOf_eq]
    · intro i hi hne
      rw [if_neg]
      intro he
      apply hne
      apply hu i (Finset.mem_range.1 hi)
      rw [← he]
      simp only [ex, Finsupp.equivFunOnFinite_symm_apply_apply]
      conv_lhs => rw [← ofFn_getD (digits Ms i) 0]
      apply List.ext_getElem
      · simp [digits_length]
      · intro k h1 h2
        have hk : k < (digits Ms i).length := by simpa using h1
        simp [hk]
    · intro hj'
      exact absurd (Finset.mem_range.2 hj) hj'

theorem expand_spec (Ms : List ℕ) (hne : 0 < Ms.length) (a : Fin Ms.length → ℤ) (N : ℕ) (hN : deg (expOf Ms) ≤ N) :
    ∃ s t p, expand Ms (List.ofFn fun j => -a j) = some s ∧ s.trie = some t ∧ Reps Ms.length t p ∧
      Agrees (expOf Ms) p (geo N fun j => (a j : ℚ)) := by
  have ht := total_pos Ms
  obtain ⟨s, t, e, e', r⟩ := insertAll_reps Ms.length hne ((List.range (total Ms)).map fun i => monoTerm (List.ofFn fun j => -a j) (digits Ms i))
    (by
      intro x hx
      obtain ⟨i, _, rfl⟩ := List.mem_map.1 hx
      exact ⟨rfl, by simp [monoTerm, digits_length]⟩)
    ⟨monoTerm (List.ofFn fun j => -a j) (digits Ms 0), List.mem_map.2 ⟨0, List.mem_range.2 ht, rfl⟩, by
      simp only [monoTerm]; rw [digits_zero, coefOf_zero]; exact one_ne_zero⟩
  exact ⟨s, t, _, by rw [expand_eq]; exact e, e', r, toPoly_expand Ms a N hN⟩

/-- coefficient 1 of the constant term -/
theorem coeff_zero_geo {D : ℕ} (N : ℕ) (a : Fin D → ℚ) : MvPolynomial.coeff 0 (geo N a) = 1 := by
  rw [coeff_geo N a 0 (by simp [deg])]
  simp [Nat.multinomial]

/-- inner products of a vertex with the forms -/
def innerAt (fs : List (Term ℚ)) (s : List ℤ) : Fin (fs.map fun t => t.degree.toNat).length → ℤ :=
  fun j => Latte.Residue.innerPro (fs.getD j ⟨0, [], 0⟩).exps.length s (fs.getD j ⟨0, [], 0⟩).exps

theorem tVector_eq (s : List ℤ) (fs : List (Term ℚ)) : tVector s fs = List.ofFn fun j => -innerAt fs s j := by
  unfold tVector innerAt
  apply List.ext_getElem
  · simp
  · intro i h1 h2
    simp

/-- the loop over the vertices -/
theorem vertexLoop_spec (fs : List (Term ℚ)) (hfs : fs ≠ []) (N : ℕ)
    (hN : deg (expOf (fs.map fun t => t.degree.toNat)) ≤ N) (ss : List (List ℤ)) :
    ∀ (t : Root ℚ) (p : Poly ℚ (fs.map fun t => t.degree.toNat).length) (f : MvPolynomial (Fin (fs.map fun t => t.degree.toNat).length) ℚ),
      Reps _ t p → Agrees (expOf (fs.map fun t => t.degree.toNat)) p f → MvPolynomial.coeff 0 f = 1 →
      ∃ (t' : Root ℚ) (p' : Poly ℚ (fs.map fun t => t.degree.toNat).length) (K : ℕ), (∀ fuel rounds, K ≤ fuel → K ≤ rounds →
        vertexLoop fuel rounds (fs.map fun t => t.degree.toNat) fs ss (some t) = some (some t')) ∧ Reps _ t' p' ∧
        Agrees (expOf (fs.map fun t => t.degree.toNat)) p' (f * (ss.map fun s => geo N fun j => (innerAt fs s j : ℚ)).prod) := by
  set Ms := fs.map fun t => t.degree.toNat with hMs
  have hlen : 0 < Ms.length := by rw [hMs, List.length_map]; exact List.length_pos_of_ne_nil hfs
  induction ss with
  | nil =>
    intro t p f hR hA _
    exact ⟨t, p, 0, fun _ _ _ _ => rfl, hR, by simpa using hA⟩
  | cons s ss ih =>
    intro t p f hR hA h0
    obtain ⟨q, tq, pq, e1, e2, R1, A1⟩ := expand_spec Ms hlen (innerAt fs s) N hN
    obtain ⟨as, N1, d1, d2⟩ := reps_drain Ms.length hlen tq pq R1
    obtain ⟨bs, N2, d1', d2'⟩ := reps_drain Ms.length hlen t p hR
    obtain ⟨r, q1, q2⟩ := mulOuter_reps Ms.length hlen (windowAdd (Ms.map fun _ => (0 : ℤ)) (Ms.map fun m : ℕ => (m : ℤ)))
      (trunc (Ms.map fun _ => (0 : ℤ)) (Ms.map fun m : ℕ => (m : ℤ)))
      (window_selects Ms.length _ _ (by simp) (by simp)) (trunc_zero _ _) (trunc_add _ _) as bs _ _
      (fun u hu => ⟨(d2.1 u hu).1, (d2.1 u hu).2.1⟩) (fun u hu => ⟨(d2'.1 u hu).1, (d2'.1 u hu).2.1⟩) d2.2.2 d2'.2.2
    have A2 := Agrees.mul Ms A1 hA
    have hc0 : MvPolynomial.coeff 0 ((geo N fun j => (innerAt fs s j : ℚ)) * f) = 1 := by
      classical
      rw [MvPolynomial.coeff_mul]
      simp [coeff_zero_geo, h0]
    rcases q2 with ⟨-, -, q3⟩ | ⟨t2, rfl, -, R2⟩
    · exfalso
      have := A2.coeff 0 (by intro i; simp)
      rw [q3, hc0] at this
      simp at this
    · obtain ⟨t', p', K, e, R', A'⟩ := ih t2 _ _ R2 A2 hc0
      refine ⟨t', p', max K (max N1 N2), fun fuel rounds h1 h2 => ?_, R', ?_⟩
      · rw [vertexLoop, tVector_eq, e1]
        simp only
        unfold multiply
        rw [e2, d1 fuel rounds (by omega) (by omega), d1' fuel rounds (by omega) (by omega)]
        simp only
        rw [q1]
        exact e fuel rounds (by omega) (by omega)
      · rw [List.map_cons, List.prod_cons, ← mul_assoc, mul_comm f]
        exact A'

theorem findCoef_spec (n : ℕ) (out : List (Term ℚ)) (p : Poly ℚ n) (h : Delivers n out p) (M : List ℤ) (hM : M.length = n) :
    findCoef M out = if p.coeff (vecOf n M) = 0 then none else some (p.coeff (vecOf n M)) := by
  obtain ⟨h1, h2, rfl⟩ := h
  induction out with
  | nil => simp [findCoef, toPoly]
  | cons t out ih =>
    classical
    have hih := ih (fun u hu => h1 u (by simp [hu])) (List.pairwise_cons.1 h2).2
    rw [findCoef, toPoly_cons, AddMonoidAlgebra.coeff_add, Finsupp.add_apply, AddMonoidAlgebra.coeff_single, Finsupp.single_apply]
    by_cases he : t.exps = M
    · have hz : (toPoly n out).coeff (vecOf n M) = 0 := by
        by_contra hne
        have hlt := (List.pairwise_cons.1 h2).1
        clear ih hih h2
        induction out with
        | nil => simp [toPoly] at hne
        | cons u out ih =>
          rw [toPoly_cons, AddMonoidAlgebra.coeff_add, Finsupp.add_apply, AddMonoidAlgebra.coeff_single, Finsupp.single_apply] at hne
          rw [if_neg] at hne
          · exact ih (fun v hv => h1 v (by rcases List.mem_cons.1 hv with rfl | hv <;> simp_all)) (by simpa using hne)
              (fun v hv => hlt v (by simp [hv]))
          · intro hv
            have hue : u.exps = M := vecOf_injective (h1 u (by simp)).2.1 hM hv
            have := hlt u (by simp)
            rw [hue, he] at this
            exact lex_irrefl this
      have hv : vecOf n t.exps = vecOf n M := by rw [he]
      simp only [hz, add_zero, if_pos hv, if_pos he, if_neg (h1 t (by simp)).2.2]
    · have : vecOf n t.exps ≠ vecOf n M := fun hv => he (vecOf_injective (h1 t (by simp)).2.1 hM hv)
      rw [if_neg he, if_neg this, zero_add, hih]

end Verif.Products
