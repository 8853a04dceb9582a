import Verif.PolySubst.Series
import Verif.Piped.Props

/-!
# What one lattice point contributes
-/

namespace Verif.PolySubst

open PowerSeries

theorem W_mul_inv : W * W⁻¹ = 1 :=
  PowerSeries.mul_inv_cancel _ (by have := constCoeff_W_pow 1; rw [pow_one] at this; rw [this]; exact one_ne_zero)

/-- `1 + s` as a unit. -/
noncomputable def Wu : (PowerSeries ℚ)ˣ := ⟨W, W⁻¹, W_mul_inv, by rw [mul_comm]; exact W_mul_inv⟩

/-- `(1 + s)^e` for integer `e`. -/
noncomputable def wz (e : ℤ) : PowerSeries ℚ := ((Wu ^ e : (PowerSeries ℚ)ˣ) : PowerSeries ℚ)

theorem wz_add (a b : ℤ) : wz (a + b) = wz a * wz b := by
  unfold wz; rw [zpow_add, Units.val_mul]

theorem wz_zero : wz 0 = 1 := by unfold wz; simp

theorem wz_nat (k : ℕ) : wz (k : ℤ) = W ^ k := by
  unfold wz; rw [zpow_natCast, Units.val_pow_eq_pow_val]; rfl

theorem wz_one : wz 1 = 1 + X := by
  have := wz_nat 1
  rw [pow_one] at this
  exact_mod_cast this

theorem constCoeff_wz (e : ℤ) : constantCoeff (wz e) = 1 := by
  have h : ∀ k : ℕ, constantCoeff (wz (k : ℤ)) = 1 := fun k => by rw [wz_nat, constCoeff_W_pow]
  rcases Int.eq_nat_or_neg e with ⟨k, rfl | rfl⟩
  · exact h k
  · have h1 : wz (-(k : ℤ)) * wz k = 1 := by rw [← wz_add, neg_add_cancel, wz_zero]
    have h2 := congrArg constantCoeff h1
    rw [map_mul, h k, mul_one, map_one] at h2
    exact h2

/-- `s / (1 - (1 + s)^n)`. -/
noncomputable def F (n : ℤ) : PowerSeries ℚ :=
  if n < 0 then wz (-n) * (G n.natAbs)⁻¹ else -(G n.natAbs)⁻¹

theorem G_mul_inv (k : ℕ) (hk : k ≠ 0) : G k * (G k)⁻¹ = 1 :=
  PowerSeries.mul_inv_cancel _ (by rw [constCoeff_G]; exact_mod_cast hk)

theorem F_spec (n : ℤ) (hn : n ≠ 0) : (1 - wz n) * F n = X := by
  have hG := G_mul_inv n.natAbs (by omega)
  have hX := X_mul_G n.natAbs
  rw [← wz_nat] at hX
  unfold F
  split_ifs with h
  · have e : ((n.natAbs : ℕ) : ℤ) = -n := by omega
    rw [e] at hX
    have h1 : wz n * wz (-n) = 1 := by rw [← wz_add, add_neg_cancel, wz_zero]
    calc (1 - wz n) * (wz (-n) * (G n.natAbs)⁻¹) = (wz (-n) - wz n * wz (-n)) * (G n.natAbs)⁻¹ := by ring
      _ = X * (G n.natAbs * (G n.natAbs)⁻¹) := by rw [h1, ← hX]; ring
      _ = X := by rw [hG, mul_one]
  · have e : ((n.natAbs : ℕ) : ℤ) = n := by omega
    rw [e] at hX
    calc (1 - wz n) * -(G n.natAbs)⁻¹ = (wz n - 1) * (G n.natAbs)⁻¹ := by ring
      _ = X * (G n.natAbs * (G n.natAbs)⁻¹) := by rw [← hX]; ring
      _ = X := by rw [hG, mul_one]

/-! ### The sign flips -/

theorem normalize_spec (dots : List ℤ) (hd : ∀ n ∈ dots, n ≠ 0) (e s : ℤ) :
    (normalizeTerm dots e s).1 = dots.map (fun n => (n.natAbs : ℤ)) ∧
    C ((normalizeTerm dots e s).2.2 : ℚ) * wz (normalizeTerm dots e s).2.1 * (dots.map fun n => (G n.natAbs)⁻¹).prod =
      C ((-1 : ℚ) ^ dots.length * s) * wz e * (dots.map F).prod := by
  induction dots generalizing e s with
  | nil => simp [normalizeTerm]
  | cons n l ih =>
    have ih' := fun e s => ih (fun x hx => hd x (List.mem_cons_of_mem _ hx)) e s
    have hn := hd n List.mem_cons_self
    unfold normalizeTerm
    by_cases h : n < 0
    · rw [if_pos h]
      obtain ⟨h1, h2⟩ := ih' (e + -n) (s * -1)
      refine ⟨?_, ?_⟩
      · show -n :: _ = _
        rw [h1, List.map_cons]
        congr 1
        omega
      · show C ((normalizeTerm l (e + -n) (s * -1)).2.2 : ℚ) * wz (normalizeTerm l (e + -n) (s * -1)).2.1 * _ = _
        rw [List.map_cons, List.prod_cons, List.map_cons, List.prod_cons, mul_left_comm, h2]
        have hF : F n = wz (-n) * (G n.natAbs)⁻¹ := by unfold F; rw [if_pos h]
        rw [hF, wz_add, List.length_cons, pow_succ]
        have : C ((-1 : ℚ) ^ l.length * ((s * -1 : ℤ) : ℚ)) = C ((-1 : ℚ) ^ l.length * (-1) * (s : ℚ)) := by
          congr 1; push_cast; ring
        rw [this]
        ring
    · rw [if_neg h]
      obtain ⟨h1, h2⟩ := ih' e s
      refine ⟨?_, ?_⟩
      · show n :: _ = _
        rw [h1, List.map_cons]
        congr 1
        omega
      · show C ((normalizeTerm l e s).2.2 : ℚ) * wz (normalizeTerm l e s).2.1 * _ = _
        rw [List.map_cons, List.prod_cons, List.map_cons, List.prod_cons, mul_left_comm, h2]
        have hF : F n = -(G n.natAbs)⁻¹ := by unfold F; rw [if_neg h]
        rw [hF, List.length_cons, pow_succ]
        have : C ((-1 : ℚ) ^ l.length * (-1) * (s : ℚ)) = -C ((-1 : ℚ) ^ l.length * (s : ℚ)) := by
          rw [← map_neg]; congr 1; ring
        rw [this]
        ring

/-! ### The denominator -/

theorem denominator_spec (d : ℕ) (ks : List ℕ) (hk : ks ≠ []) :
    ∃ D, denominator d (ks.map fun k : ℕ => (k : ℤ)) = some D ∧ Agrees d D (ks.map G).prod := by
  cases ks with
  | nil => exact absurd rfl hk
  | cons k0 l =>
    refine ⟨_, rfl, ?_⟩
    rw [List.map_cons, List.prod_cons]
    have key : ∀ (l : List ℕ) (D : Arr) (f : PowerSeries ℚ), Agrees d D f →
        Agrees d ((l.map fun k : ℕ => (k : ℤ)).foldl (fun D nn => mulInto d D (factorCoeff nn)) D) (f * (l.map G).prod) := by
      intro l
      induction l with
      | nil => intro D f h; simpa using h
      | cons k l ih =>
        intro D f h
        rw [List.map_cons, List.foldl_cons, List.map_cons, List.prod_cons, ← mul_assoc]
        exact ih _ _ (agrees_mul d D _ f _ h (agrees_factor d k))
    exact key l _ _ (agrees_factor d k0)

theorem constCoeff_prod_G (ks : List ℕ) : constantCoeff (ks.map G).prod = ((ks.prod : ℕ) : ℚ) := by
  induction ks with
  | nil => simp
  | cons k l ih => rw [List.map_cons, List.prod_cons, map_mul, ih, constCoeff_G, List.prod_cons]; push_cast; rfl

theorem prod_G_inv (ks : List ℕ) (hk : ∀ k ∈ ks, k ≠ 0) : (ks.map G).prod * (ks.map fun k => (G k)⁻¹).prod = 1 := by
  induction ks with
  | nil => simp
  | cons k l ih =>
    rw [List.map_cons, List.map_cons, List.prod_cons, List.prod_cons, mul_mul_mul_comm, G_mul_inv k (hk k List.mem_cons_self),
      ih fun x hx => hk x (List.mem_cons_of_mem _ hx), one_mul]

/-- Rounding down a quotient. -/
theorem fdiv_scaled (r : ℤ × ℤ) (P : ℤ) (hP : 0 < P) (x : ℚ) (h1 : r.1 = P) (h2 : (r.2 : ℚ) = P * x) (T s : ℤ) :
    (r.2 * T * s).fdiv r.1 = ⌊(T : ℚ) * (s * x)⌋ := by
  rw [h1, ← Piped.floor_fdiv _ _ hP.ne']
  congr 1
  push_cast
  rw [h2]
  have : (P : ℚ) ≠ 0 := by exact_mod_cast hP.ne'
  field_simp

/-- The contribution of a normalized term is the coefficient of `s^d`, rounded down. -/
theorem contribution_spec (T : ℤ) (ks : List ℕ) (hk : ks ≠ []) (hpos : ∀ k ∈ ks, k ≠ 0) (e s : ℤ) :
    contribution T (ks.map fun k : ℕ => (k : ℤ)) e s =
      some ⌊(T : ℚ) * (s * coeff ks.length (wz e * (ks.map fun k => (G k)⁻¹).prod))⌋ := by
  obtain ⟨D, hD, hA⟩ := denominator_spec ks.length ks hk
  have hpr := prod_G_inv ks hpos
  have hD0 : ∀ (D : Arr) (f : PowerSeries ℚ), Agrees ks.length D f → constantCoeff f = ((ks.prod : ℕ) : ℚ) → 0 < D 0 := by
    intro D f h hf
    have h1 := h 0 (Nat.zero_le _)
    rw [coeff_zero_eq_constantCoeff_apply, hf] at h1
    have h2 : D 0 = ((ks.prod : ℕ) : ℤ) := by
      have h3 : ((D 0 : ℤ) : ℚ) = (((ks.prod : ℕ) : ℤ) : ℚ) := by rw [h1, Int.cast_natCast]
      exact Int.cast_injective h3
    rw [h2]
    have : ks.prod ≠ 0 := List.prod_ne_zero fun h => hpos 0 h rfl
    omega
  unfold contribution
  simp only [List.length_map, hD]
  congr 1
  split_ifs with he
  · obtain ⟨k, rfl⟩ : ∃ k : ℕ, e = -(k : ℤ) := ⟨e.natAbs, by omega⟩
    rw [neg_neg]
    have hA' := agrees_mul ks.length D _ _ _ hA (agrees_num ks.length k)
    have hN : Agrees ks.length (fun j => if j = 0 then 1 else 0) 1 := by
      intro j _
      rw [coeff_one]
      split_ifs with h <;> simp [h]
    have hg : (ks.map G).prod * W ^ k * (wz (-(k : ℤ)) * (ks.map fun k => (G k)⁻¹).prod) = 1 := by
      rw [mul_mul_mul_comm, mul_comm (W ^ k), mul_mul_mul_comm, ← wz_nat, ← wz_add, neg_add_cancel, wz_zero, hpr,
        one_mul]
    obtain ⟨h1, h2⟩ := divide_eq ks.length _ _ _ _ _ hA' hN hg
    refine fdiv_scaled _ _ (pow_pos (hD0 _ _ hA' ?_) (ks.length + 1)) _ h1 (by rw [h2]; push_cast; rfl) T s
    rw [map_mul, constCoeff_prod_G, constCoeff_W_pow, mul_one]
  · obtain ⟨k, rfl⟩ : ∃ k : ℕ, e = (k : ℤ) := ⟨e.natAbs, by omega⟩
    have hg : (ks.map G).prod * (wz (k : ℤ) * (ks.map fun k => (G k)⁻¹).prod) = W ^ k := by
      rw [mul_left_comm, hpr, mul_one, wz_nat]
    obtain ⟨h1, h2⟩ := divide_eq ks.length _ _ _ _ _ hA (agrees_num ks.length k) hg
    exact fdiv_scaled _ _ (pow_pos (hD0 _ _ hA (constCoeff_prod_G ks)) (ks.length + 1)) _ h1 (by rw [h2]; push_cast; rfl) T s

/-- **C70, one term.** For non-zero scalar products `dots` of the rays and the scalar product `e` of a lattice point: the integer added to the total is
`T` times the coefficient of `s^d` in `sign · (1+s)^e · s^d / ∏ ((1+s)^{nᵢ} - 1)`, rounded down. -/
theorem term_spec (T : ℤ) (dots : List ℤ) (h0 : dots ≠ []) (hd : ∀ n ∈ dots, n ≠ 0) (e s : ℤ) :
    term T dots e s = some ⌊(T : ℚ) * ((-1) ^ dots.length * (s * coeff dots.length (wz e * (dots.map F).prod)))⌋ := by
  obtain ⟨h1, h2⟩ := normalize_spec dots hd e s
  unfold term
  simp only [h1]
  have h3 := contribution_spec T (dots.map Int.natAbs) (by simpa using h0)
    (by intro k hk; obtain ⟨n, hn, rfl⟩ := List.mem_map.1 hk; have := hd n hn; omega)
    (normalizeTerm dots e s).2.1 (normalizeTerm dots e s).2.2
  rw [List.map_map, List.map_map, List.length_map] at h3
  refine h3.trans ?_
  congr 3
  have h4 := congrArg (coeff dots.length) h2
  rw [mul_assoc, coeff_C_mul, mul_assoc, coeff_C_mul] at h4
  rw [← mul_assoc ((-1 : ℚ) ^ _)]
  exact h4

end Verif.PolySubst
