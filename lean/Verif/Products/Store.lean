import Verif.Products.Model
import Verif.Products.Algebra
import Verif.Trie.MulProps
import Verif.Trie.Decompose
import Mathlib.Data.Finsupp.Interval

/-! Stored expansions: what the trie products of `integrateLinFormProducts` contain. -/

namespace Verif.Products

open Verif.Trie Verif.Measure

/-! ### polynomials and Laurent polynomials -/

/-- exponents as integers -/
def expHom (D : ℕ) : (Fin D →₀ ℕ) →+ (Fin D → ℤ) where
  toFun n := fun j => (n j : ℤ)
  map_zero' := by funext j; simp
  map_add' a b := by funext j; simp

theorem expHom_injective (D : ℕ) : Function.Injective (expHom D) := by
  intro a b h
  ext j
  have := congrFun h j
  simpa [expHom] using this

/-- a polynomial as a Laurent polynomial -/
noncomputable def emb (D : ℕ) : MvPolynomial (Fin D) ℚ →+* Poly ℚ D := AddMonoidAlgebra.mapDomainRingHom ℚ (expHom D)

theorem emb_monomial (D : ℕ) (n : Fin D →₀ ℕ) (c : ℚ) : emb D (MvPolynomial.monomial n c) = AddMonoidAlgebra.single (expHom D n) c := by
  unfold emb
  exact AddMonoidAlgebra.mapDomain_single

theorem emb_coeff (D : ℕ) (f : MvPolynomial (Fin D) ℚ) (e : Fin D → ℤ) :
    (∀ n, expHom D n = e → (emb D f).coeff e = MvPolynomial.coeff n f) ∧ ((∀ n, expHom D n ≠ e) → (emb D f).coeff e = 0) := by
  classical
  induction f using MvPolynomial.induction_on' with
  | monomial m c =>
    rw [emb_monomial, AddMonoidAlgebra.coeff_single, Finsupp.single_apply]
    refine ⟨?_, fun h => if_neg (h m)⟩
    rintro n rfl
    rw [MvPolynomial.coeff_monomial]
    by_cases h : m = n
    · rw [if_pos h, if_pos (congrArg _ h)]
    · rw [if_neg h, if_neg fun h' => h (expHom_injective D h')]
  | add p q hp hq =>
    rw [map_add, AddMonoidAlgebra.coeff_add, Finsupp.add_apply]
    refine ⟨fun n h => ?_, fun h => ?_⟩
    · rw [hp.1 n h, hq.1 n h, MvPolynomial.coeff_add]
    · rw [hp.2 h, hq.2 h, add_zero]

/-- the terms up to `M` -/
noncomputable def cut {D : ℕ} (M : Fin D →₀ ℕ) (f : MvPolynomial (Fin D) ℚ) : MvPolynomial (Fin D) ℚ :=
  ∑ n ∈ Finset.Icc 0 M, MvPolynomial.monomial n (MvPolynomial.coeff n f)

theorem cut_coeff {D : ℕ} (M : Fin D →₀ ℕ) (f : MvPolynomial (Fin D) ℚ) (n : Fin D →₀ ℕ) :
    MvPolynomial.coeff n (cut M f) = if n ≤ M then MvPolynomial.coeff n f else 0 := by
  classical
  unfold cut
  rw [MvPolynomial.coeff_sum]
  simp_rw [MvPolynomial.coeff_monomial]
  rw [Finset.sum_ite_eq' (Finset.Icc 0 M) n]
  simp

/-- the exponent vector of a list -/
noncomputable def expOf (Ms : List ℕ) : Fin Ms.length →₀ ℕ := Finsupp.equivFunOnFinite.symm fun j => Ms.getD j 0

theorem inWindow_iff (Ms : List ℕ) (n : Fin Ms.length →₀ ℕ) :
    InWindow (Ms.map fun _ => (0 : ℤ)) (Ms.map fun m : ℕ => (m : ℤ)) (expHom Ms.length n) ↔ n ≤ expOf Ms := by
  have h : ∀ i : Fin Ms.length, (Ms.map fun _ => (0 : ℤ)).getD i 0 = 0 ∧ (Ms.map fun m : ℕ => (m : ℤ)).getD i 0 = ((Ms.getD i 0 : ℕ) : ℤ) := by
    intro i
    rw [List.getD_eq_getElem _ _ (by simp), List.getD_eq_getElem _ _ (by simp), List.getD_eq_getElem _ _ i.2]
    simp
  unfold InWindow
  constructor
  · intro hw i
    have := (hw i).2
    rw [(h i).2] at this
    simpa [expHom, expOf] using this
  · intro hn i
    rw [(h i).1, (h i).2]
    have := hn i
    refine ⟨by simp [expHom], ?_⟩
    simpa [expHom, expOf] using this

theorem trunc_emb (Ms : List ℕ) (f : MvPolynomial (Fin Ms.length) ℚ) :
    trunc (Ms.map fun _ => (0 : ℤ)) (Ms.map fun m : ℕ => (m : ℤ)) (emb Ms.length f) = emb Ms.length (cut (expOf Ms) f) := by
  classical
  ext e
  unfold trunc
  rw [AddMonoidAlgebra.coeff_ofCoeff, Finsupp.filter_apply]
  by_cases he : ∃ n, expHom Ms.length n = e
  · obtain ⟨n, rfl⟩ := he
    rw [(emb_coeff _ f _).1 n rfl, (emb_coeff _ (cut (expOf Ms) f) _).1 n rfl, cut_coeff]
    simp only [inWindow_iff]
  · push Not at he
    rw [(emb_coeff _ f _).2 he, (emb_coeff _ (cut (expOf Ms) f) _).2 he, ite_self]

/-- the stored polynomial has the coefficients of `f` up to `M` -/
def Agrees {D : ℕ} (M : Fin D →₀ ℕ) (p : Poly ℚ D) (f : MvPolynomial (Fin D) ℚ) : Prop :=
  ∃ f', p = emb D f' ∧ ∀ n ≤ M, MvPolynomial.coeff n f' = MvPolynomial.coeff n f

theorem Agrees.mul (Ms : List ℕ) {p q : Poly ℚ Ms.length} {f g : MvPolynomial (Fin Ms.length) ℚ} (hp : Agrees (expOf Ms) p f)
    (hq : Agrees (expOf Ms) q g) :
    Agrees (expOf Ms) (trunc (Ms.map fun _ => (0 : ℤ)) (Ms.map fun m : ℕ => (m : ℤ)) (p * q)) (f * g) := by
  classical
  obtain ⟨f', rfl, hf⟩ := hp
  obtain ⟨g', rfl, hg⟩ := hq
  refine ⟨cut (expOf Ms) (f' * g'), by rw [← map_mul, trunc_emb], fun n hn => ?_⟩
  rw [cut_coeff, if_pos hn, MvPolynomial.coeff_mul, MvPolynomial.coeff_mul]
  apply Finset.sum_congr rfl
  rintro ⟨a, b⟩ hab
  rw [Finset.mem_antidiagonal] at hab
  simp only at hab ⊢
  have ha : a ≤ n := fun i => by rw [← hab]; simp
  have hb : b ≤ n := fun i => by rw [← hab]; simp
  rw [hf a (ha.trans hn), hg b (hb.trans hn)]

theorem Agrees.coeff {D : ℕ} {M : Fin D →₀ ℕ} {p : Poly ℚ D} {f : MvPolynomial (Fin D) ℚ} (h : Agrees M p f) (n : Fin D →₀ ℕ) (hn : n ≤ M) :
    p.coeff (expHom D n) = MvPolynomial.coeff n f := by
  obtain ⟨f', rfl, hf⟩ := h
  rw [(emb_coeff D f' _).1 n rfl, hf n hn]

/-! ### the counter -/

theorem bumpC_digits (Ms : List ℕ) (j : ℕ) (h : j + 1 < total Ms) : bumpC Ms (digits Ms j) = some (digits Ms (j + 1)) := by
  induction Ms generalizing j with
  | nil => simp [total] at h
  | cons M Ms ih =>
    have ht : total (M :: Ms) = (M + 1) * total Ms := by simp [total]
    have hlt : j % (M + 1) < M + 1 := Nat.mod_lt j (by omega)
    have hdm := Nat.div_add_mod j (M + 1)
    rw [digits, bumpC]
    by_cases hc : j % (M + 1) = M
    · have hj : j + 1 = (M + 1) * (j / (M + 1) + 1) := by rw [Nat.mul_succ]; omega
      have h1 : (j + 1) % (M + 1) = 0 := by rw [hj, Nat.mul_mod_right]
      have h2 : (j + 1) / (M + 1) = j / (M + 1) + 1 := by
        rw [hj, Nat.mul_div_cancel_left _ (Nat.succ_pos M)]
      rw [if_pos (by omega), ih]
      · rw [digits, h1, h2]; rfl
      · rw [ht, hj] at h
        exact Nat.lt_of_mul_lt_mul_left h
    · have hk : j % (M + 1) + 1 < M + 1 := by omega
      have hj : j + 1 = (M + 1) * (j / (M + 1)) + (j % (M + 1) + 1) := by omega
      have h1 : (j + 1) % (M + 1) = j % (M + 1) + 1 := by
        rw [hj, Nat.mul_add_mod, Nat.mod_eq_of_lt hk]
      have h2 : (j + 1) / (M + 1) = j / (M + 1) := by
        rw [hj, Nat.mul_add_div (Nat.succ_pos M), Nat.div_eq_of_lt hk, add_zero]
      rw [if_neg (by omega), digits, h1, h2]

theorem digits_length (Ms : List ℕ) (j : ℕ) : (digits Ms j).length = Ms.length := by
  induction Ms generalizing j with
  | nil => rfl
  | cons M Ms ih => simp [digits, ih]

theorem digits_le (Ms : List ℕ) (j i : ℕ) : (digits Ms j).getD i 0 ≤ Ms.getD i 0 := by
  induction Ms generalizing j i with
  | nil => simp [digits]
  | cons M Ms ih =>
    cases i with
    | zero => simp only [digits, List.getD_cons_zero]; have := Nat.mod_lt j (show 0 < M + 1 by omega); omega
    | succ i => simp only [digits, List.getD_cons_succ]; exact ih _ _

theorem digits_unique (Ms ns : List ℕ) (hl : ns.length = Ms.length) (h : ∀ i, ns.getD i 0 ≤ Ms.getD i 0) :
    ∃ j < total Ms, digits Ms j = ns ∧ ∀ k < total Ms, digits Ms k = ns → k = j := by
  induction Ms generalizing ns with
  | nil =>
    refine ⟨0, by simp [total], by rw [List.length_nil, List.length_eq_zero_iff] at hl; rw [hl]; rfl, fun k hk _ => ?_⟩
    simp [total] at hk; exact hk
  | cons M Ms ih =>
    obtain ⟨n, ns, rfl⟩ : ∃ n ns', ns = n :: ns' := by
      cases ns with
      | nil => simp at hl
      | cons n ns => exact ⟨n, ns, rfl⟩
    obtain ⟨q, hq, hd, hu⟩ := ih ns (by simpa using hl) (fun i => by have := h (i + 1); simpa using this)
    have hn : n ≤ M := by have := h 0; simpa using this
    have ht : total (M :: Ms) = (M + 1) * total Ms := by simp [total]
    refine ⟨(M + 1) * q + n, ?_, ?_, ?_⟩
    · rw [ht]; nlinarith
    · rw [digits, Nat.mul_add_mod, Nat.mod_eq_of_lt (by omega), Nat.mul_add_div (Nat.succ_pos M), Nat.div_eq_of_lt (by omega), add_zero, hd]
    · intro k hk he
      rw [digits, List.cons.injEq] at he
      have := hu (k / (M + 1)) (by rw [ht] at hk; exact Nat.div_lt_of_lt_mul hk) he.2
      have h2 := Nat.div_add_mod k (M + 1)
      rw [this, he.1] at h2
      exact h2.symm

/-! ### coefficients of the expansion -/

theorem multinomial_succ (D : ℕ) (n : Fin (D + 1) → ℕ) :
    Nat.multinomial Finset.univ n = (∑ j, n j).choose (n 0) * Nat.multinomial Finset.univ (fun j : Fin D => n j.succ) := by
  have h1 := Nat.multinomial_spec Finset.univ n
  have h2 := Nat.multinomial_spec Finset.univ (fun j : Fin D => n j.succ)
  rw [Fin.prod_univ_succ, Fin.sum_univ_succ] at h1
  rw [Fin.sum_univ_succ]
  have h3 := Nat.add_choose_mul_factorial_mul_factorial (n 0) (∑ j : Fin D, n j.succ)
  have hpos : 0 < (n 0).factorial * ∏ j : Fin D, (n j.succ).factorial :=
    Nat.mul_pos (Nat.factorial_pos _) (Finset.prod_pos fun j _ => Nat.factorial_pos _)
  apply Nat.eq_of_mul_eq_mul_left hpos
  rw [h1, ← h3, ← h2, Nat.choose_symm_add]
  ring

theorem coefLoop_eq (D : ℕ) : ∀ (t : Fin D → ℤ) (n : Fin D → ℕ) (a : ℚ), coefLoop (∑ j, n j) (List.ofFn t) (List.ofFn n) a =
    a * (Nat.multinomial Finset.univ n : ℚ) * ∏ j, (t j : ℚ) ^ n j := by
  induction D with
  | zero => intro t n a; simp [coefLoop]
  | succ D ih =>
    intro t n a
    rw [List.ofFn_succ, List.ofFn_succ, coefLoop, Fin.sum_univ_succ, Nat.add_sub_cancel_left, ih, multinomial_succ, Fin.prod_univ_succ,
      Latte.Residue.c27_choose_exact, Fin.sum_univ_succ]
    push_cast
    ring

theorem coefOf_eq (D : ℕ) (a : Fin D → ℤ) (n : Fin D → ℕ) :
    coefOf (List.ofFn fun j => -a j) (List.ofFn n) = (Nat.multinomial Finset.univ n : ℚ) * ∏ j, (a j : ℚ) ^ n j := by
  unfold coefOf
  have hs : (List.ofFn n).foldl (fun a c => a + c) 0 = ∑ j, n j := by
    rw [← List.sum_eq_foldl, List.sum_ofFn]
  simp only [hs]
  rw [coefLoop_eq]
  have hp : (∏ j, ((-a j : ℤ) : ℚ) ^ n j) = (-1) ^ (∑ j, n j) * ∏ j, (a j : ℚ) ^ n j := by
    rw [← Finset.prod_pow_eq_pow_sum, ← Finset.prod_mul_distrib]
    apply Finset.prod_congr rfl
    intro j _
    push_cast
    rw [← mul_pow]
    ring
  rw [hp]
  by_cases h : (∑ j, n j) % 2 = 1
  · rw [if_pos h, Odd.neg_one_pow (Nat.odd_iff.2 h)]; ring
  · rw [if_neg h, Even.neg_one_pow (Nat.even_iff.2 (by omega))]; ring

end Verif.Products
