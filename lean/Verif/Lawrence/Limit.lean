import Verif.Lawrence.Semantics
import Mathlib.Algebra.MvPolynomial.Eval
import Mathlib.Algebra.Polynomial.Roots
import Mathlib.Algebra.BigOperators.Fin

/-! If a polynomial `I` agrees with the Lawrence sum at all generic points, its value at *every* point `l` is the sum of the
constant terms of the Laurent expansions along any direction resolving the poles of the cones with `<v,l> ≠ 0`. -/

namespace Latte.Lawrence

open PowerSeries

/-! ### identities of rational functions from identities of values -/

structure Frac where
  k : ℚ
  N : Polynomial ℚ
  D : Polynomial ℚ

theorem poly_zero_of_generic (A E : Polynomial ℚ) (hE : E ≠ 0) (h : ∀ t, E.eval t ≠ 0 → A.eval t = 0) : A = 0 := by
  have : A * E = 0 := by
    apply Polynomial.funext
    intro t
    rw [Polynomial.eval_mul, Polynomial.eval_zero]
    by_cases ht : E.eval t = 0
    · rw [ht, mul_zero]
    · rw [h t ht, zero_mul]
  rcases mul_eq_zero.1 this with h | h
  · exact h
  · exact absurd h hE

theorem frac_field {K : Type} [Field K] (φ : Polynomial ℚ →+* K) (hφ : Function.Injective φ) (fs : List Frac) :
    ∀ (A B : Polynomial ℚ), B ≠ 0 → (∀ f ∈ fs, f.D ≠ 0) →
    (∀ t, B.eval t ≠ 0 → (∀ f ∈ fs, f.D.eval t ≠ 0) → A.eval t / B.eval t = (fs.map fun f => f.k * (f.N.eval t / f.D.eval t)).sum) →
    φ A / φ B = (fs.map fun f => φ (Polynomial.C f.k) * (φ f.N / φ f.D)).sum := by
  induction fs with
  | nil =>
    intro A B hB _ h
    have : A = 0 := poly_zero_of_generic A B hB (fun t ht => by
      have := h t ht (by simp)
      simpa [ht] using this)
    simp [this]
  | cons f fs ih =>
    intro A B hB hD h
    have hf := hD f (by simp)
    have hD' : ∀ f ∈ fs, f.D ≠ 0 := fun f hf => hD f (by simp [hf])
    have hφB : φ B ≠ 0 := (map_ne_zero_iff φ hφ).2 hB
    have hφf : φ f.D ≠ 0 := (map_ne_zero_iff φ hφ).2 hf
    have := ih (A * f.D - Polynomial.C f.k * f.N * B) (B * f.D) (mul_ne_zero hB hf) hD' (by
      intro t ht hfs
      rw [Polynomial.eval_mul] at ht
      have h1 := left_ne_zero_of_mul ht
      have h2 := right_ne_zero_of_mul ht
      have h3 := h t h1 (by
        intro g hg
        rcases List.mem_cons.1 hg with rfl | hg
        · exact h2
        · exact hfs g hg)
      rw [List.map_cons, List.sum_cons] at h3
      rw [← sub_eq_iff_eq_add'] at h3
      rw [← h3]
      simp only [Polynomial.eval_sub, Polynomial.eval_mul, Polynomial.eval_C]
      field_simp)
    rw [List.map_cons, List.sum_cons, ← this]
    simp only [map_sub, map_mul]
    field_simp
    ring

theorem frac_at_zero (E : Polynomial ℚ) (hE : E ≠ 0) (fs : List Frac) :
    ∀ (A B : Polynomial ℚ), B.eval 0 ≠ 0 → (∀ f ∈ fs, f.D.eval 0 ≠ 0) →
    (∀ t, E.eval t ≠ 0 → B.eval t ≠ 0 → (∀ f ∈ fs, f.D.eval t ≠ 0) →
      A.eval t / B.eval t = (fs.map fun f => f.k * (f.N.eval t / f.D.eval t)).sum) →
    A.eval 0 / B.eval 0 = (fs.map fun f => f.k * (f.N.eval 0 / f.D.eval 0)).sum := by
  induction fs with
  | nil =>
    intro A B hB _ h
    have hB0 : B ≠ 0 := by intro h0; rw [h0] at hB; simp at hB
    have : A = 0 := poly_zero_of_generic A (E * B) (mul_ne_zero hE hB0) (fun t ht => by
      rw [Polynomial.eval_mul] at ht
      have h2 := right_ne_zero_of_mul ht
      have := h t (left_ne_zero_of_mul ht) h2 (by simp)
      simpa [h2] using this)
    simp [this]
  | cons f fs ih =>
    intro A B hB hD h
    have hf := hD f (by simp)
    have hD' : ∀ f ∈ fs, f.D.eval 0 ≠ 0 := fun f hf => hD f (by simp [hf])
    have := ih (A * f.D - Polynomial.C f.k * f.N * B) (B * f.D) (by rw [Polynomial.eval_mul]; exact mul_ne_zero hB hf) hD' (by
      intro t hEt ht hfs
      rw [Polynomial.eval_mul] at ht
      have h1 := left_ne_zero_of_mul ht
      have h2 := right_ne_zero_of_mul ht
      have h3 := h t hEt h1 (by
        intro g hg
        rcases List.mem_cons.1 hg with rfl | hg
        · exact h2
        · exact hfs g hg)
      rw [List.map_cons, List.sum_cons] at h3
      rw [← sub_eq_iff_eq_add'] at h3
      rw [← h3]
      simp only [Polynomial.eval_sub, Polynomial.eval_mul, Polynomial.eval_C]
      field_simp)
    rw [List.map_cons, List.sum_cons, ← this]
    simp only [Polynomial.eval_sub, Polynomial.eval_mul, Polynomial.eval_C]
    field_simp
    ring

/-! ### splitting off the pole -/

/-- indices of the factors without constant term are those with `p.1 = 0` -/
noncomputable def linProd (ps : List (ℚ × ℚ)) : ℚ⟦X⟧ := (ps.map fun p => lin p.1 p.2).prod

def zeros (ps : List (ℚ × ℚ)) : List (ℚ × ℚ) := ps.filter fun p => p.1 = 0
def nonzeros (ps : List (ℚ × ℚ)) : List (ℚ × ℚ) := ps.filter fun p => p.1 ≠ 0

theorem linProd_split (ps : List (ℚ × ℚ)) :
    linProd ps = C ((zeros ps).map (·.2)).prod * X ^ (zeros ps).length * linProd (nonzeros ps) := by
  induction ps with
  | nil => simp [linProd, zeros, nonzeros]
  | cons p ps ih =>
    unfold linProd zeros nonzeros at *
    rw [List.map_cons, List.prod_cons, ih]
    by_cases h : p.1 = 0
    · rw [List.filter_cons_of_pos (by simpa using h), List.filter_cons_of_neg (by simpa using h), List.map_cons, List.prod_cons,
        List.length_cons, map_mul]
      have : lin p.1 p.2 = C p.2 * X := by unfold lin; rw [h]; simp
      rw [this]; ring
    · rw [List.filter_cons_of_neg (by simpa using h), List.filter_cons_of_pos (by simpa using h), List.map_cons, List.prod_cons]
      ring

theorem nonzeros_const (ps : List (ℚ × ℚ)) : constantCoeff (linProd (nonzeros ps)) ≠ 0 := by
  unfold linProd
  rw [map_list_prod, List.map_map]
  apply List.prod_ne_zero
  intro h0
  obtain ⟨p, hp, e⟩ := List.mem_map.1 h0
  have hp' := (List.mem_filter.1 hp).2
  simp only [Function.comp, lin_const] at e
  simp [e] at hp'

theorem zeros_prod (ps : List (ℚ × ℚ)) (h : ∀ p ∈ ps, p.1 = 0 → p.2 ≠ 0) : ((zeros ps).map (·.2)).prod ≠ 0 := by
  apply List.prod_ne_zero
  intro h0
  obtain ⟨p, hp, e⟩ := List.mem_map.1 h0
  have := List.mem_filter.1 hp
  exact h p this.1 (by simpa using this.2) e

theorem laurent0_split (N : ℚ⟦X⟧) (ps : List (ℚ × ℚ)) (h : ∀ p ∈ ps, p.1 = 0 → p.2 ≠ 0) :
    laurent0 N (linProd ps) = coeff (zeros ps).length (N * (linProd (nonzeros ps))⁻¹) / ((zeros ps).map (·.2)).prod := by
  rw [linProd_split, laurent0_eq _ _ _ _ (zeros_prod ps h) (nonzeros_const ps)]

/-- a vanishing numerator of high order contributes nothing -/
theorem laurent0_vanish (b : ℚ) (k : Nat) (ps : List (ℚ × ℚ)) (h : ∀ p ∈ ps, p.1 = 0 → p.2 ≠ 0) (hk : (zeros ps).length < k) :
    laurent0 (lin 0 b ^ k) (linProd ps) = 0 := by
  rw [laurent0_split _ _ h]
  have : lin 0 b ^ k = X ^ k * (C b) ^ k := by
    unfold lin; rw [map_zero, zero_add, mul_pow, mul_comm]
  rw [this, mul_assoc, coeff_X_pow_mul', if_neg (by omega), zero_div]

/-! ### polynomial families of power series -/

def PolyFun (f : ℚ → ℚ) : Prop := ∃ P : Polynomial ℚ, ∀ s, f s = P.eval s

theorem PolyFun.const (c : ℚ) : PolyFun fun _ => c := ⟨Polynomial.C c, fun s => by simp⟩
theorem PolyFun.affine (a b : ℚ) : PolyFun fun s => a + s * b := ⟨Polynomial.C a + Polynomial.X * Polynomial.C b, fun s => by simp; ring⟩
theorem PolyFun.add {f g : ℚ → ℚ} (hf : PolyFun f) (hg : PolyFun g) : PolyFun fun s => f s + g s := by
  obtain ⟨P, hP⟩ := hf; obtain ⟨Q, hQ⟩ := hg
  exact ⟨P + Q, fun s => by simp [hP, hQ]⟩
theorem PolyFun.mul {f g : ℚ → ℚ} (hf : PolyFun f) (hg : PolyFun g) : PolyFun fun s => f s * g s := by
  obtain ⟨P, hP⟩ := hf; obtain ⟨Q, hQ⟩ := hg
  exact ⟨P * Q, fun s => by simp [hP, hQ]⟩
theorem PolyFun.pow {f : ℚ → ℚ} (hf : PolyFun f) (n : Nat) : PolyFun fun s => f s ^ n := by
  obtain ⟨P, hP⟩ := hf
  exact ⟨P ^ n, fun s => by simp [hP]⟩
theorem PolyFun.sum {ι : Type} (S : Finset ι) (f : ι → ℚ → ℚ) (h : ∀ i ∈ S, PolyFun (f i)) : PolyFun fun s => ∑ i ∈ S, f i s := by
  classical
  induction S using Finset.induction_on with
  | empty => simpa using PolyFun.const 0
  | insert a S ha ih =>
    have := (h a (by simp)).add (ih fun i hi => h i (by simp [hi]))
    simpa [Finset.sum_insert ha] using this

def PolyFam (F : ℚ → ℚ⟦X⟧) : Prop := ∀ n, PolyFun fun s => coeff n (F s)

theorem PolyFam.mul {F G : ℚ → ℚ⟦X⟧} (hF : PolyFam F) (hG : PolyFam G) : PolyFam fun s => F s * G s := by
  intro n
  simp only [coeff_mul]
  exact PolyFun.sum _ _ fun i _ => (hF i.1).mul (hG i.2)

theorem PolyFam.lin_pow (a : ℚ) {b : ℚ → ℚ} (hb : PolyFun b) (N : Nat) : PolyFam fun s => lin a (b s) ^ N := by
  intro n
  simp only [lin_pow_coeff]
  exact (PolyFun.const _).mul (hb.pow n)

theorem PolyFam.lin_inv (a : ℚ) (ha : a ≠ 0) {b : ℚ → ℚ} (hb : PolyFun b) : PolyFam fun s => (lin a (b s))⁻¹ := by
  intro n
  have : ∀ s, coeff n ((lin a (b s))⁻¹) = ((-1) ^ n * ((1 + n - 1).choose n : ℚ) * (a⁻¹) ^ (1 + n)) * b s ^ n := by
    intro s
    have := lin_inv_coeff a (b s) ha 1 (le_refl _) n
    rwa [pow_one] at this
  simp only [this]
  exact (PolyFun.const _).mul (hb.pow n)

/-- one factor `a + (b + s b') ε` for every entry -/
structure Ent where
  a : ℚ
  b : ℚ
  b' : ℚ

def ents (es : List Ent) (s : ℚ) : List (ℚ × ℚ) := es.map fun x => (x.a, x.b + s * x.b')

theorem nonzeros_fam (es : List Ent) : PolyFam fun s => (linProd (nonzeros (ents es s)))⁻¹ := by
  induction es with
  | nil =>
    intro n
    simp only [ents, nonzeros, linProd, List.map_nil, List.filter_nil, List.prod_nil, inv_one_ps]
    exact PolyFun.const _
  | cons x es ih =>
    by_cases h : x.a = 0
    · have : ∀ s, nonzeros (ents (x :: es) s) = nonzeros (ents es s) := by
        intro s
        unfold nonzeros ents
        rw [List.map_cons, List.filter_cons_of_neg (by simpa using h)]
      simp only [this]; exact ih
    · have : ∀ s, (linProd (nonzeros (ents (x :: es) s)))⁻¹ = (linProd (nonzeros (ents es s)))⁻¹ * (lin x.a (x.b + s * x.b'))⁻¹ := by
        intro s
        unfold nonzeros ents linProd
        rw [List.map_cons, List.filter_cons_of_pos (by simpa using h), List.map_cons, List.prod_cons, PowerSeries.mul_inv_rev]
      simp only [this]
      exact ih.mul (PolyFam.lin_inv x.a h (PolyFun.affine _ _))

theorem zeros_len (es : List Ent) (s : ℚ) : (zeros (ents es s)).length = (es.filter fun x => x.a = 0).length := by
  unfold zeros ents
  rw [List.filter_map, List.length_map]
  rfl

theorem zeros_fun (es : List Ent) : PolyFun fun s => ((zeros (ents es s)).map (·.2)).prod := by
  induction es with
  | nil => simpa [zeros, ents] using PolyFun.const 1
  | cons x es ih =>
    by_cases h : x.a = 0
    · have : ∀ s, ((zeros (ents (x :: es) s)).map (·.2)).prod = (x.b + s * x.b') * ((zeros (ents es s)).map (·.2)).prod := by
        intro s
        unfold zeros ents
        rw [List.map_cons, List.filter_cons_of_pos (by simpa using h), List.map_cons, List.prod_cons]
      simp only [this]
      exact (PolyFun.affine _ _).mul ih
    · have : ∀ s, zeros (ents (x :: es) s) = zeros (ents es s) := by
        intro s
        unfold zeros ents
        rw [List.map_cons, List.filter_cons_of_neg (by simpa using h)]
      simp only [this]; exact ih

/-- a cone along the family of directions: `k · <v, l + ε(e + s e')>^(M) / ∏ <r, l + ε(e + s e')>` -/
structure CD where
  k : ℚ
  v : Ent
  rs : List Ent

noncomputable def CD.at (M : Nat) (c : CD) (s : ℚ) : ℚ :=
  c.k * laurent0 (lin c.v.a (c.v.b + s * c.v.b') ^ M) (linProd (ents c.rs s))

/-- The heart of the matter: the sum over the cones with `<v,l> ≠ 0` along `e` equals the value obtained along generic directions. -/
theorem limit_sum (M : Nat) (K : ℚ) (cs : List CD) (E : Polynomial ℚ) (hE : E ≠ 0)
    (hgen : ∀ s, E.eval s ≠ 0 → ∀ c ∈ cs, ∀ x ∈ c.rs, x.a = 0 → x.b + s * x.b' ≠ 0)
    (hres : ∀ c ∈ cs, c.v.a ≠ 0 → ∀ x ∈ c.rs, x.a = 0 → x.b ≠ 0)
    (hvan : ∀ c ∈ cs, c.v.a = 0 → (c.rs.filter fun x => x.a = 0).length < M)
    (hsum : ∀ s, E.eval s ≠ 0 → K = (cs.map fun c => c.at M s).sum) :
    K = (cs.map fun c => if c.v.a = 0 then 0 else c.at M 0).sum := by
  -- numerators and denominators as polynomials in s
  have hnum : ∀ c : CD, ∃ P : Polynomial ℚ, ∀ s, coeff (c.rs.filter fun x => x.a = 0).length
      (lin c.v.a (c.v.b + s * c.v.b') ^ M * (linProd (nonzeros (ents c.rs s)))⁻¹) = P.eval s := fun c =>
    (PolyFam.lin_pow c.v.a (PolyFun.affine c.v.b c.v.b') M).mul (nonzeros_fam c.rs) _
  have hden : ∀ c : CD, ∃ P : Polynomial ℚ, ∀ s, ((zeros (ents c.rs s)).map (·.2)).prod = P.eval s := fun c => zeros_fun c.rs
  choose N hN using hnum
  choose D hD using hden
  let fr : CD → Frac := fun c => if c.v.a = 0 then ⟨0, 0, 1⟩ else ⟨c.k, N c, D c⟩
  have hval : ∀ c ∈ cs, ∀ s, (∀ x ∈ c.rs, x.a = 0 → x.b + s * x.b' ≠ 0) →
      (if c.v.a = 0 then 0 else c.at M s) = (fr c).k * ((fr c).N.eval s / (fr c).D.eval s) ∧ (c.v.a = 0 → c.at M s = 0) := by
    intro c hc s hs
    have hps : ∀ p ∈ ents c.rs s, p.1 = 0 → p.2 ≠ 0 := by
      intro p hp
      obtain ⟨x, hx, rfl⟩ := List.mem_map.1 hp
      exact hs x hx
    constructor
    · by_cases h0 : c.v.a = 0
      · simp [fr, h0]
      · simp only [fr, if_neg h0]
        unfold CD.at
        rw [laurent0_split _ _ hps, zeros_len, hN, hD]
    · intro h0
      unfold CD.at
      rw [h0, laurent0_vanish _ _ _ hps (by rw [zeros_len]; exact hvan c hc h0), mul_zero]
  have h0 := frac_at_zero E hE (cs.map fr) (Polynomial.C K) 1 (by simp) (by
      intro f hf
      obtain ⟨c, hc, rfl⟩ := List.mem_map.1 hf
      by_cases h0 : c.v.a = 0
      · simp [fr, h0]
      · simp only [fr, if_neg h0]
        rw [← hD]
        apply zeros_prod
        intro p hp
        obtain ⟨x, hx, rfl⟩ := List.mem_map.1 hp
        simpa using hres c hc h0 x hx) (by
      intro t ht _ _
      rw [Polynomial.eval_C, Polynomial.eval_one, div_one, hsum t ht, List.map_map]
      congr 1
      apply List.map_congr_left
      intro c hc
      obtain ⟨h1, h2⟩ := hval c hc t (hgen t ht c hc)
      rw [Function.comp, ← h1]
      split_ifs with hz
      · exact h2 hz
      · rfl)
  rw [Polynomial.eval_C, Polynomial.eval_one, div_one, List.map_map] at h0
  rw [h0]
  congr 1
  apply List.map_congr_left
  intro c hc
  by_cases hz : c.v.a = 0
  · simp [fr, hz]
  · rw [Function.comp, ← (hval c hc 0 (by simpa using hres c hc hz)).1]

/-- along one generic direction -/
theorem generic_sum (M : Nat) (P : Polynomial ℚ) (cs : List CD) (h0 : ∀ c ∈ cs, ∀ x ∈ c.rs, x.a = 0 → x.b ≠ 0)
    (h : ∀ t, (∀ c ∈ cs, ∀ x ∈ c.rs, x.a + t * x.b ≠ 0) →
      P.eval t = (cs.map fun c => c.k * ((c.v.a + t * c.v.b) ^ M / (c.rs.map fun x => x.a + t * x.b).prod)).sum) :
    P.eval 0 = (cs.map fun c => c.at M 0).sum := by
  let lp : Ent → Polynomial ℚ := fun x => Polynomial.C x.a + Polynomial.C x.b * Polynomial.X
  have hlp : ∀ x : Ent, ((lp x : Polynomial ℚ) : ℚ⟦X⟧) = lin x.a x.b := by
    intro x
    simp only [lp, lin, Polynomial.coe_add, Polynomial.coe_mul, Polynomial.coe_C, Polynomial.coe_X]
  have hev : ∀ (x : Ent) (t : ℚ), (lp x).eval t = x.a + t * x.b := by intro x t; simp [lp]; ring
  have hevp : ∀ (rs : List Ent) (t : ℚ), ((rs.map lp).prod).eval t = (rs.map fun x => x.a + t * x.b).prod := by
    intro rs t
    induction rs with
    | nil => simp
    | cons x rs ih => rw [List.map_cons, List.prod_cons, Polynomial.eval_mul, ih, hev]; simp
  let fr : CD → Frac := fun c => ⟨c.k, lp c.v ^ M, (c.rs.map lp).prod⟩
  have hps : ∀ rs : List Ent, (((rs.map lp).prod : Polynomial ℚ) : ℚ⟦X⟧) = linProd (ents rs 0) := by
    intro rs
    induction rs with
    | nil => simp [linProd, ents]
    | cons x rs ih =>
      rw [List.map_cons, List.prod_cons, Polynomial.coe_mul, ih, hlp]
      simp [linProd, ents]
  let φ : Polynomial ℚ →+* LaurentSeries ℚ := (HahnSeries.ofPowerSeries ℤ ℚ).comp (Polynomial.coeToPowerSeries.ringHom)
  have hφ : ∀ Q : Polynomial ℚ, φ Q = ((Q : ℚ⟦X⟧) : LaurentSeries ℚ) := fun Q => rfl
  have hinj : Function.Injective φ := by
    intro a b hab
    exact Polynomial.coe_injective ℚ (HahnSeries.ofPowerSeries_injective hab)
  have key := frac_field φ hinj (cs.map fr) P 1 one_ne_zero (by
      intro f hf
      obtain ⟨c, hc, rfl⟩ := List.mem_map.1 hf
      simp only [fr]
      apply List.prod_ne_zero
      intro hm
      obtain ⟨x, hx, e⟩ := List.mem_map.1 hm
      have e0 := congrArg (Polynomial.coeff · 0) e
      have e1 := congrArg (Polynomial.coeff · 1) e
      simp [lp] at e0 e1
      exact h0 c hc x hx e0 e1) (by
      intro t _ ht
      rw [Polynomial.eval_one, div_one, h t, List.map_map]
      · congr 1
        apply List.map_congr_left
        intro c hc
        simp only [Function.comp, fr]
        rw [Polynomial.eval_pow, hev, hevp]
      · intro c hc x hx h0
        apply ht (fr c) (List.mem_map_of_mem hc)
        simp only [fr]
        rw [hevp]
        exact List.prod_eq_zero (List.mem_map.2 ⟨x, hx, h0⟩))
  have hc0 := congrArg (fun f : LaurentSeries ℚ => f.coeff 0) key
  simp only [map_one, div_one] at hc0
  have hP : (φ P).coeff 0 = P.eval 0 := by
    rw [hφ]
    have := LaurentSeries.coeff_coe_powerSeries (P : ℚ⟦X⟧) 0
    rw [Nat.cast_zero] at this
    rw [this, Polynomial.coeff_coe, Polynomial.coeff_zero_eq_eval_zero]
  rw [hP] at hc0
  rw [hc0]
  have hsum : ∀ (l : List (LaurentSeries ℚ)), (l.sum).coeff 0 = (l.map fun f => f.coeff 0).sum := by
    intro l
    induction l with
    | nil => simp
    | cons a l ih => simp [ih]
  rw [hsum, List.map_map, List.map_map]
  congr 1
  apply List.map_congr_left
  intro c hc
  simp only [Function.comp, fr]
  unfold CD.at laurent0
  rw [hφ, hφ, hφ, Polynomial.coe_C, PowerSeries.coe_C, HahnSeries.C_mul_eq_smul, HahnSeries.coeff_smul, smul_eq_mul, hps, Polynomial.coe_pow, hlp]
  simp

end Latte.Lawrence
