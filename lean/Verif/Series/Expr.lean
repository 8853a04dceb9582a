import Verif.Series.Tree

/-!
# C74: expansion of expressions
-/

namespace Verif.Series

open PowerSeries

/-- **C74, expansion.** The coefficients delivered for an expression in the pool are those of its value, whatever has been expanded and stored before; the
expressions are not changed and the stored results are right afterwards. -/
theorem c74_expand (d : ℕ) (T : ℤ) (p : Pool) (hdeg : d ≤ p.degree) (hc : CacheOk d T p) (c : Ref) (f : PowerSeries ℤ) (h : Den T p c f) (fuel : ℕ)
    (hfuel : c.rank < fuel) :
    ∃ r p', taylor d T fuel c p = .ok (r, p') ∧ (∀ k ≤ d, r k = coeff k f) ∧ Same p p' ∧ CacheOk d T p' := by
  obtain ⟨r, p', h1, h2, h3⟩ := taylor_spec hdeg h fuel hfuel p ⟨.refl _, hc⟩
  exact ⟨r, p', h1, h3, h2.same, h2.cache⟩

/-- **C74, several expressions.** Whatever is expanded before, in any order and with any common subexpressions, does not matter. -/
theorem c74_expand_all (d : ℕ) (T : ℤ) (cs : List Ref) : ∀ (p : Pool), d ≤ p.degree → CacheOk d T p → (∀ c ∈ cs, ∃ f, Den T p c f) →
    ∀ (c : Ref) (f : PowerSeries ℤ), Den T p c f →
    ∃ p', cs.foldlM (fun q x => (taylor d T (q.usedP + 1) x q).map Prod.snd) p = .ok p' ∧
      ∃ r p'', taylor d T (p.usedP + 1) c p' = .ok (r, p'') ∧ ∀ k ≤ d, r k = coeff k f := by
  induction cs with
  | nil =>
    intro p hdeg hc _ c f h
    obtain ⟨r, p', h1, h2, -⟩ := c74_expand d T p hdeg hc c f h (p.usedP + 1) (by have := rank_of_below h.used; omega)
    exact ⟨p, rfl, r, p', h1, h2⟩
  | cons x cs ih =>
    intro p hdeg hc hcs c f h
    obtain ⟨g, hg⟩ := hcs x List.mem_cons_self
    obtain ⟨r, p1, h1, -, h3, h4⟩ := c74_expand d T p hdeg hc x g hg (p.usedP + 1) (by have := rank_of_below hg.used; omega)
    obtain ⟨p', e1, r', p'', e2, e3⟩ := ih p1 (by rw [h3.degree]; exact hdeg) h4 (fun y hy => by
      obtain ⟨k, hk⟩ := hcs y (List.mem_cons_of_mem _ hy)
      exact ⟨k, h3.den hk⟩) c f (h3.den h)
    refine ⟨p', ?_, r', p'', by rw [← h3.usedP]; exact e2, e3⟩
    rw [List.foldlM_cons, h1]
    exact e1

/-- **C74, quotients.** The value of a quotient is the exact quotient of the power series, multiplied by `T` and rounded down coefficient by coefficient. -/
theorem c74_quotient (T : ℤ) (a b : PowerSeries ℤ) (hb : constantCoeff b ≠ 0) : ∃ q : PowerSeries ℚ, toQ b * q = toQ a ∧
    ∀ k, coeff k (divSeries T a b) = ⌊(T : ℚ) * coeff k q⌋ := by
  refine ⟨toQ a * (toQ b)⁻¹, ?_, fun k => by rw [divSeries, coeff_mk]⟩
  have h0 : constantCoeff (toQ b) ≠ 0 := by
    rw [← coeff_zero_eq_constantCoeff_apply, coeff_toQ, coeff_zero_eq_constantCoeff_apply]
    exact_mod_cast hb
  rw [mul_left_comm, PowerSeries.mul_inv_cancel _ h0, mul_one]

/-- A power with exponent zero is never finished, although its value would be one. -/
theorem c74_power_zero (d : ℕ) (T : ℤ) (fuel i : ℕ) (p : Pool) (hdeg : d ≤ p.degree) (hop : (p.poly i).op = .exp) (h0 : (p.poly i).num = 0)
    (hd : (p.poly i).dirty = true) : taylor d T (fuel + 1) (.poly i) p = .error .fuel := by
  unfold taylor
  rw [if_neg (by omega), if_neg (by simp [hd])]
  unfold expand
  simp only [hop, h0, if_true]

/-! ### The hypotheses are satisfiable -/

/-- An empty pool with room for four children and coefficients up to `t^3`. -/
def emptyPool : Pool := ⟨fun _ => ⟨.add, 0, fun _ => .tn 0, true, fun _ => 0⟩, fun _ => ⟨0, 0⟩, 0, 0, 4, 3⟩

/-- `1 + t`, its square, `1 - 2t`, and the quotient. -/
def exampleBuild : Except ExpSubst.Fail (Ref × Pool) :=
  let one := getT 1 0 emptyPool
  let t := getT 1 1 one.2
  let u := getT (-2) 1 t.2
  match mkP .add 2 [one.1, t.1] u.2 with
  | .error e => .error e
  | .ok (s, p) =>
    match powerNode s 2 p with
    | .error e => .error e
    | .ok (n, p) =>
      match mkP .add 2 [one.1, u.1] p with
      | .error e => .error e
      | .ok (b, p) => mkP .div 2 [n, b] p

/-- `(1 + t)^2 / (1 - 2t) = 1 + 4t + 9t^2 + 18t^3 + …`, with `T = 10`. -/
example : (match exampleBuild with
    | .ok (c, p) => (match taylor 3 10 (p.usedP + 1) c p with | .ok (r, _) => (List.range 4).map r | .error _ => [])
    | .error _ => []) = [10, 40, 90, 180] := by decide +kernel

/-- The expression has a value and the pool is in order. -/
example (T : ℤ) : ∃ c p f, exampleBuild = .ok (c, p) ∧ Den T p c f ∧ CacheOk 3 T p ∧ 3 ≤ p.degree := by
  have c0 : CacheOk 3 T emptyPool := by intro i hi; exact absurd hi (by show ¬ i < 0; omega)
  have e1 := getT_ext 3 T 1 0 emptyPool
  have e2 := getT_ext 3 T 1 1 (getT 1 0 emptyPool).2
  have e3 := getT_ext 3 T (-2) 1 (getT 1 1 (getT 1 0 emptyPool).2).2
  have d1 := e3.den (e2.den (getT_den T 1 0 le_rfl emptyPool))
  have d2 := e3.den (getT_den T 1 1 zero_le_one (getT 1 0 emptyPool).2)
  have d3 := getT_den T (-2) 1 zero_le_one (getT 1 1 (getT 1 0 emptyPool).2).2
  obtain ⟨s, p1, h1, x1, y1⟩ := mkP_add (d := 3) 2 _ _ (.cons d1 (.cons d2 .nil)) rfl (by show 2 ≤ 4; omega)
  obtain ⟨n, p2, h2, x2, y2⟩ := mkP_exp (d := 3) s 2 (by norm_num) _ y1 (by rw [x1.width]; show 1 ≤ 4; omega)
  obtain ⟨b, p3, h3, x3, y3⟩ := mkP_add (d := 3) 2 _ _ (.cons (x2.den (x1.den d1)) (.cons (x2.den (x1.den d3)) .nil)) rfl
    (by rw [x2.width, x1.width]; show 2 ≤ 4; omega)
  obtain ⟨c, p4, h4, x4, y4⟩ := mkP_div (d := 3) n b _ _ (x3.den y2) y3 (by simp) (by rw [x3.width, x2.width, x1.width]; show 2 ≤ 4; omega)
  refine ⟨c, p4, _, ?_, y4, x4.cache (x3.cache (x2.cache (x1.cache (e3.cache (e2.cache (e1.cache c0)))))), ?_⟩
  · unfold exampleBuild
    dsimp only
    rw [h1]
    dsimp only
    rw [h2]
    dsimp only
    rw [h3]
    exact h4
  · rw [x4.degree, x3.degree, x2.degree, x1.degree]
    exact le_rfl

end Verif.Series
