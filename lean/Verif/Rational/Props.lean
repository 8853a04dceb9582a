import Verif.Rational.Lemmas

/-!
Properties C01–C05 (rational arithmetic, comparison, text, zero denominators, aliasing).
-/

namespace Latte.Rational

/-! ### C01: specification

`Hist` is the set of all ways to build a rational through the API.  `Hist.exact` is the intended
meaning in `ℚ`, `none` when a denominator or divisor is zero (or zero is raised to a negative power).
`Hist.run` executes the modelled code; `none` means a failed assertion. -/

/-- histories of API calls producing one rational -/
inductive Hist where
  | zero
  | ofInt (z : Int)
  | frac (n d : Int)
  | add (a b : Hist)
  | sub (a b : Hist)
  | mul (a b : Hist)
  | mulInt (a : Hist) (z : Int)
  | div (a b : Hist)
  | divInt (a : Hist) (z : Int)
  | pow (a : Hist) (e : Int)
  | neg (a : Hist)

/-- intended meaning in `ℚ` -/
def Hist.exact : Hist → Option ℚ
  | .zero => some 0
  | .ofInt z => some z
  | .frac n d => if d = 0 then none else some ((n : ℚ) / d)
  | .add a b => a.exact.bind fun x => b.exact.map fun y => x + y
  | .sub a b => a.exact.bind fun x => b.exact.map fun y => x - y
  | .mul a b => a.exact.bind fun x => b.exact.map fun y => x * y
  | .mulInt a z => a.exact.map fun x => x * z
  | .div a b => a.exact.bind fun x => b.exact.bind fun y => if y = 0 then none else some (x / y)
  | .divInt a z => a.exact.bind fun x => if z = 0 then none else some (x / z)
  | .pow a e => a.exact.bind fun x => if e < 0 ∧ x = 0 then none else some (x ^ e)
  | .neg a => a.exact.map fun x => -x

/-- execution by the modelled code -/
def Hist.run : Hist → Option RatN
  | .zero => some Rational.zero
  | .ofInt z => some (ofZ z)
  | .frac n d => some (mk' n d)
  | .add a b => a.run.bind fun x => b.run.bind fun y => Rational.add x y
  | .sub a b => a.run.bind fun x => b.run.bind fun y => Rational.sub x y
  | .mul a b => a.run.bind fun x => b.run.map fun y => Rational.mul x y
  | .mulInt a z => a.run.map fun x => mulZ x z
  | .div a b => a.run.bind fun x => b.run.map fun y => Rational.div x y
  | .divInt a z => a.run.map fun x => divZ x z
  | .pow a e => a.run.bind fun x => power x e
  | .neg a => a.run.map fun x => changeSign x

theorem run_canonical (h : Hist) (q : ℚ) (hq : h.exact = some q) :
    ∃ r, h.run = some r ∧ Canonical r ∧ r.val = q := by
  induction h generalizing q with
  | zero =>
    simp only [Hist.exact, Option.some.injEq] at hq
    subst hq
    exact ⟨_, rfl, ⟨by decide, by decide⟩, by simp [RatN.val, Rational.zero]⟩
  | ofInt z =>
    simp only [Hist.exact, Option.some.injEq] at hq
    subst hq
    exact ⟨_, rfl, ⟨by simp [ofZ], by simp [ofZ]⟩, by simp [RatN.val, ofZ]⟩
  | frac n d =>
    simp only [Hist.exact] at hq
    split_ifs at hq with hd
    simp only [Option.some.injEq] at hq
    have := mk'_spec n d hd
    exact ⟨_, rfl, this.1, this.2.trans hq⟩
  | add a b iha ihb =>
    simp only [Hist.exact, Option.bind_eq_some_iff, Option.map_eq_some_iff] at hq
    obtain ⟨x, hx, y, hy, rfl⟩ := hq
    obtain ⟨ra, ha1, ha2, ha3⟩ := iha x hx
    obtain ⟨rb, hb1, hb2, hb3⟩ := ihb y hy
    obtain ⟨r, h1, h2, h3⟩ := add_spec ha2 hb2
    exact ⟨r, by simp [Hist.run, ha1, hb1, h1], h2, by rw [h3, ha3, hb3]⟩
  | sub a b iha ihb =>
    simp only [Hist.exact, Option.bind_eq_some_iff, Option.map_eq_some_iff] at hq
    obtain ⟨x, hx, y, hy, rfl⟩ := hq
    obtain ⟨ra, ha1, ha2, ha3⟩ := iha x hx
    obtain ⟨rb, hb1, hb2, hb3⟩ := ihb y hy
    obtain ⟨r, h1, h2, h3⟩ := sub_spec ha2 hb2
    exact ⟨r, by simp [Hist.run, ha1, hb1, h1], h2, by rw [h3, ha3, hb3]⟩
  | mul a b iha ihb =>
    simp only [Hist.exact, Option.bind_eq_some_iff, Option.map_eq_some_iff] at hq
    obtain ⟨x, hx, y, hy, rfl⟩ := hq
    obtain ⟨ra, ha1, ha2, ha3⟩ := iha x hx
    obtain ⟨rb, hb1, hb2, hb3⟩ := ihb y hy
    have := mul_spec ha2 hb2
    exact ⟨_, by simp [Hist.run, ha1, hb1], this.1, by rw [this.2, ha3, hb3]⟩
  | mulInt a z iha =>
    simp only [Hist.exact, Option.map_eq_some_iff] at hq
    obtain ⟨x, hx, rfl⟩ := hq
    obtain ⟨ra, ha1, ha2, ha3⟩ := iha x hx
    have := mulZ_spec ha2 z
    exact ⟨_, by simp [Hist.run, ha1], this.1, by rw [this.2, ha3]⟩
  | div a b iha ihb =>
    simp only [Hist.exact, Option.bind_eq_some_iff] at hq
    obtain ⟨x, hx, y, hy, h⟩ := hq
    split_ifs at h with h0
    simp only [Option.some.injEq] at h
    obtain ⟨ra, ha1, ha2, ha3⟩ := iha x hx
    obtain ⟨rb, hb1, hb2, hb3⟩ := ihb y hy
    have := div_spec ha2 hb2 (by rw [hb3]; exact h0)
    exact ⟨_, by simp [Hist.run, ha1, hb1], this.1, by rw [this.2, ha3, hb3, h]⟩
  | divInt a z iha =>
    simp only [Hist.exact, Option.bind_eq_some_iff] at hq
    obtain ⟨x, hx, h⟩ := hq
    split_ifs at h with h0
    simp only [Option.some.injEq] at h
    obtain ⟨ra, ha1, ha2, ha3⟩ := iha x hx
    have := divZ_spec ha2 z h0
    exact ⟨_, by simp [Hist.run, ha1], this.1, by rw [this.2, ha3, h]⟩
  | pow a e iha =>
    simp only [Hist.exact, Option.bind_eq_some_iff] at hq
    obtain ⟨x, hx, h⟩ := hq
    split_ifs at h with h0
    simp only [Option.some.injEq] at h
    obtain ⟨ra, ha1, ha2, ha3⟩ := iha x hx
    obtain ⟨r, h1, h2, h3⟩ := power_spec ha2 e (fun he hv => h0 ⟨he, ha3 ▸ hv⟩)
    exact ⟨r, by simp [Hist.run, ha1, h1], h2, by rw [h3, ha3, h]⟩
  | neg a iha =>
    simp only [Hist.exact, Option.map_eq_some_iff] at hq
    obtain ⟨x, hx, rfl⟩ := hq
    obtain ⟨ra, ha1, ha2, ha3⟩ := iha x hx
    have := changeSign_spec ha2
    exact ⟨_, by simp [Hist.run, ha1], this.1, by rw [this.2, ha3]⟩

/-- **C01** Every history of API calls without a zero divisor runs without assertion failure and ends with
exactly the numerator and denominator of the exact rational result (Mathlib's `ℚ` is kept in lowest terms
with positive denominator). -/
theorem c01_exact_arithmetic (h : Hist) (q : ℚ) (hq : h.exact = some q) :
    ∃ r, h.run = some r ∧ r.num = q.num ∧ r.den = q.den ∧ 0 < r.den ∧ Int.gcd r.num r.den = 1 := by
  obtain ⟨r, h1, h2, h3⟩ := run_canonical h q hq
  have := h2.eq_num_den
  rw [h3] at this
  exact ⟨r, h1, this.1, this.2, h2.1, h2.2⟩

/-- non-vacuity: 6 over -4, plus 1, cubed and inverted, times 2 -/
example : (Hist.mulInt (.pow (.add (.frac 6 (-4)) (.ofInt 1)) (-3)) 2).exact = some (-16) := by
  norm_num [Hist.exact]
example : (Hist.mulInt (.pow (.add (.frac 6 (-4)) (.ofInt 1)) (-3)) 2).run = some ⟨-16, 1⟩ := by decide

/-- **C02** Equality of two values produced by the API (with any histories) is equality of the exact numbers. -/
theorem c02_equality_decides (h k : Hist) (p q : ℚ) (hp : h.exact = some p) (hq : k.exact = some q) :
    ∃ a b, h.run = some a ∧ k.run = some b ∧ (eqR a b = true ↔ p = q) ∧ (neR a b = true ↔ p ≠ q) := by
  obtain ⟨a, a1, a2, a3⟩ := run_canonical h p hp
  obtain ⟨b, b1, b2, b3⟩ := run_canonical k q hq
  have key : eqR a b = true ↔ p = q := by
    constructor
    · intro e
      simp only [eqR, Bool.and_eq_true, beq_iff_eq] at e
      rw [← a3, ← b3]; unfold RatN.val; rw [e.1, e.2]
    · intro e
      have : a = b := canonical_ext a2 b2 (by rw [a3, b3, e])
      subst this; simp [eqR]
  refine ⟨a, b, a1, b1, key, ?_⟩
  rw [ne_eq, ← key]; simp [neR]

/-- **C02** comparison with an integer. -/
theorem c02_equality_int (h : Hist) (p : ℚ) (hp : h.exact = some p) (z : Int) :
    ∃ a, h.run = some a ∧ (eqZ a z = true ↔ p = z) ∧ (neZ a z = true ↔ p ≠ z) := by
  obtain ⟨a, a1, a2, a3⟩ := run_canonical h p hp
  have key : eqZ a z = true ↔ p = z := by
    constructor
    · intro e
      simp only [eqZ, Bool.and_eq_true, beq_iff_eq] at e
      rw [← a3]; unfold RatN.val; rw [e.1, e.2]; simp
    · intro e
      have hz : Canonical (ofZ z) := ⟨by simp [ofZ], by simp [ofZ]⟩
      have : a = ofZ z := canonical_ext a2 hz (by rw [a3, e]; simp [RatN.val, ofZ])
      subst this; simp [eqZ, ofZ]
  refine ⟨a, a1, key, ?_⟩
  rw [ne_eq, ← key]; simp [neZ]

example : eqR (mk' 2 (-4)) (mk' (-3) 6) = true := by decide

/-! ### C03 -/

open Latte.Decimal

/-- a stream continuation that cannot be taken for part of the number -/
def Stops (rest : List Char) : Prop :=
  ∀ c, rest.head? = some c → isDigit c = false ∧ isSpace c = false ∧ c ≠ '/'

theorem takeWhile_append_of_all {p : Char → Bool} (l r : List Char) (hl : ∀ c ∈ l, p c = true)
    (hr : ∀ c, r.head? = some c → p c = false) :
    (l ++ r).takeWhile p = l ∧ (l ++ r).dropWhile p = r := by
  induction l with
  | nil =>
    cases r with
    | nil => simp
    | cons c cs => have := hr c rfl; simp [this]
  | cons c cs ih =>
    have h1 := hl c (List.mem_cons_self ..)
    have h2 := ih (fun x hx => hl x (List.mem_cons_of_mem _ hx))
    simp [h1, h2]

theorem readNumber_print (z : Int) (ws rest : List Char) (hws : ∀ c ∈ ws, isSpace c = true)
    (hrest : ∀ c, rest.head? = some c → isDigit c = false) :
    readNumber (ws ++ (printInt z ++ rest)) = some (z, rest) := by
  obtain ⟨c, cs, hz, hc, hcs⟩ := printInt_cons z
  have hd : (ws ++ (printInt z ++ rest)).dropWhile isSpace = c :: (cs ++ rest) := by
    have := (takeWhile_append_of_all (p := isSpace) ws (printInt z ++ rest) hws (by
      intro x hx
      rw [hz] at hx
      simp only [List.cons_append, List.head?_cons, Option.some.injEq] at hx
      subst hx
      rcases hc with h | h
      · exact isDigit_not_space h
      · subst h; decide)).2
    rw [this, hz]; rfl
  unfold readNumber
  rw [hd]
  have ht := takeWhile_append_of_all (p := isDigit) cs rest hcs hrest
  simp only []
  rw [if_pos (by rcases hc with h | h; exact Or.inr (Or.inr h); exact Or.inr (Or.inl h)), ht.1, ht.2, ← hz,
    parseInt_printInt]
  rfl

/-- **C03** Reading what was printed, after optional white space and before any continuation that cannot belong
to the number, returns the same rational and leaves exactly the continuation in the stream. -/
theorem c03_print_read (r : RatN) (hr : Canonical r) (ws rest : List Char)
    (hws : ∀ c ∈ ws, isSpace c = true) (hrest : Stops rest) :
    read (ws ++ (print r ++ rest)) = some (r, rest) := by
  unfold print
  by_cases hd : r.den = 1
  · simp only [hd, ne_eq, not_true_eq_false, if_false, List.append_nil]
    unfold read
    rw [readNumber_print _ _ _ hws (fun c hc => (hrest c hc).1)]
    have hdrop : rest.dropWhile isSpace = rest := by
      cases rest with
      | nil => rfl
      | cons c cs => simp [(hrest c rfl).2.1]
    simp only [Option.bind_some, hdrop]
    have hm : mk' r.num 1 = r := by
      have h := mk'_spec r.num 1 one_ne_zero
      apply canonical_ext h.1 hr
      rw [h.2]; unfold RatN.val; rw [hd]
    cases rest with
    | nil => simp [hm]
    | cons c cs =>
      have hc := (hrest c rfl).2.2
      split
      · rename_i s2 heq
        simp only [List.cons.injEq] at heq
        exact absurd heq.1 hc
      · rw [hm]
  · simp only [hd, ne_eq, not_false_eq_true, if_true, List.append_assoc]
    unfold read
    rw [readNumber_print _ _ _ hws (by
      intro c hc
      simp only [List.cons_append, List.head?_cons, Option.some.injEq] at hc
      subst hc; decide)]
    have hdrop : ('/' :: printInt r.den ++ rest).dropWhile isSpace = '/' :: (printInt r.den ++ rest) := by
      simp [show isSpace '/' = false by decide]
    simp only [Option.bind_some]
    rw [hdrop]
    simp only []
    have := readNumber_print r.den [] rest (by simp) (fun c hc => (hrest c hc).1)
    simp only [List.nil_append] at this
    rw [this]
    simp only [Option.map_some]
    have hm : mk' r.num r.den = r := canonicalize_of_canonical hr
    rw [hm]

/-- **C03** the string constructor reads back what was printed. -/
theorem c03_print_ofString (r : RatN) (hr : Canonical r) : ofString (print r) = some r := by
  have hns : ∀ z : Int, ∀ c ∈ printInt z, (decide (c ≠ '/')) = true := by
    intro z c hc
    rcases printInt_chars z c hc with h | h
    · simp only [ne_eq, decide_not, Bool.not_eq_eq_eq_not, Bool.not_true, decide_eq_false_iff_not]
      rintro rfl; revert h; decide
    · subst h; decide
  unfold print ofString
  by_cases hd : r.den = 1
  · simp only [hd, ne_eq, not_true_eq_false, if_false, List.append_nil]
    have := (takeWhile_append_of_all (p := fun c => decide (c ≠ '/')) (printInt r.num) [] (hns _) (by simp)).2
    simp only [List.append_nil] at this
    rw [show (printInt r.num).dropWhile (fun x => decide (¬ x = '/')) = [] from this]
    simp only [parseInt_printInt, Option.map_some]
    cases r; simp_all
  · simp only [hd, ne_eq, not_false_eq_true, if_true]
    have := takeWhile_append_of_all (p := fun c => decide (c ≠ '/')) (printInt r.num) ('/' :: printInt r.den)
      (hns _) (by intro c hc; simp at hc; subst hc; decide)
    rw [show (printInt r.num ++ '/' :: printInt r.den).dropWhile (fun x => decide (¬ x = '/')) = _ from this.2,
      show (printInt r.num ++ '/' :: printInt r.den).takeWhile (fun x => decide (¬ x = '/')) = _ from this.1]
    simp only [parseInt_printInt, Option.bind_some, Option.map_some]
    rw [show mk' r.num r.den = r from canonicalize_of_canonical hr]

example : print ⟨-12, 23⟩ = ['-', '1', '2', '/', '2', '3'] := by decide +kernel
example : read [' ', '-', '1', '2', '/', '-', '2', '3', ']', 'b'] = some (⟨12, 23⟩, [']', 'b']) := by decide +kernel
example : Canonical ⟨-12, 23⟩ ∧ Stops [']', 'b'] := by
  refine ⟨⟨by decide, by decide⟩, ?_⟩
  intro c hc; simp at hc; subst hc; decide

/-! ### C04 (violated by the code) -/

/-- **C04, negation**: a fraction with denominator zero silently becomes its numerator, for every numerator. -/
theorem c04_zero_denominator_silently_accepted (n : Int) :
    (Hist.frac n 0).run = some ⟨n, 1⟩ ∧ (Hist.frac n 0).exact = none := by
  simp [Hist.run, Hist.exact, mk', canonicalize_zero_den]

/-- **C04, negation**: dividing any value by integer zero silently returns its numerator (not an error, and not even
the dividend). -/
theorem c04_division_by_zero_silent (a : RatN) : divZ a 0 = ⟨a.num, 1⟩ := by
  simp [divZ, canonicalize_zero_den]

/-- **C04, negation**: dividing by the rational zero. -/
theorem c04_division_by_rational_zero_silent (a : RatN) : div a zero = ⟨a.num, 1⟩ := by
  simp [div, zero, canonicalize_zero_den]

/-- **C04, the part that holds**: adding a fraction with denominator zero and raising zero to a negative power
are stopped by assertions. -/
theorem c04_add_zero_denominator_stopped_partial (a : RatN) (n : Int) (e : Int) (he : e < 0) :
    addZ a n 0 = none ∧ power ⟨0, 1⟩ e = none := by
  refine ⟨by simp [addZ], ?_⟩
  unfold power
  rw [if_neg (by omega), if_pos he]; simp

/-! ### C05 -/

/-- **C05**: dividing by a *different object* holding the same non-zero value gives one. -/
theorem c05_division_by_copy (a : RatN) (ha : Canonical a) (h0 : a.num ≠ 0) : div a a = ⟨1, 1⟩ := by
  have hv := (val_ne_zero_iff ha).2 h0
  have h := div_spec ha ha hv
  apply canonical_ext h.1 ⟨by decide, by decide⟩
  rw [h.2, div_self hv]; simp [RatN.val]

/-- **C05, negation**: in-place division of `x` by itself returns `1/denominator`, so it is one exactly for integers. -/
theorem c05_self_division_aliasing (a : RatN) (ha : Canonical a) (h0 : a.num ≠ 0) :
    divSelf a = ⟨1, a.den⟩ ∧ (divSelf a = ⟨1, 1⟩ ↔ a.den = 1) := by
  have h := divSelf_spec ha ((val_ne_zero_iff ha).2 h0)
  have e : divSelf a = ⟨1, a.den⟩ :=
    canonical_ext h.1 ⟨ha.1, by simp⟩ (by rw [h.2]; simp [RatN.val])
  refine ⟨e, ?_⟩
  rw [e]; simp

example : divSelf ⟨2, 3⟩ = ⟨1, 3⟩ := by decide

/-- the hand-written binary gcd (`myGCD`, still in the class) terminates and is the gcd. -/
theorem c01_myGCD_correct (a b : Int) : ∃ fuel, myGCD fuel a b = some (Int.gcd a b) := by
  refine ⟨a.natAbs + b.natAbs + 1, ?_⟩
  have hs : ∀ z : Int, z * z.sign = (z.natAbs : Int) := fun z => by
    rw [Int.mul_sign_self]
  unfold myGCD
  simp only [hs]
  split_ifs with h
  · rcases h with h | h
    · have : b.natAbs = 1 := by exact_mod_cast h
      simp [Int.gcd, this]
    · have : a.natAbs = b.natAbs := by exact_mod_cast h
      simp [Int.gcd, this]
  · rw [myGCDLoop_spec _ _ _ _ (by omega)]
    simp [Int.gcd]

example : myGCD 100 (-12) 18 = some 6 := by decide

end Latte.Rational
