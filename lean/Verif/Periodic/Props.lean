import Verif.Periodic.Model
import Mathlib.Algebra.Order.Floor.Ring
import Mathlib.Data.Rat.Floor

/-!
Property C32: an expression built through the `PeriodicFunction` interface denotes the function obtained by the
same operations on functions; comparison with a constant is sound; the printed text determines the expression.
Property C58: the fallback (raw-pointer) implementation does not satisfy this.
-/

namespace Verif.Periodic

open Latte.Rational Latte.Decimal

/-! ### Specification: histories of calls and what they mean

A program works on variables `0, 1, 2, …` of type `PeriodicFunction`, all default-constructed.
The meaning of a variable is a partial function of the time `t`: `none` where an operation is undefined
(division by zero, zero to a negative power). -/

/-- one call of the public interface -/
inductive Cmd where
  | constant (i : Nat) (q : RatN)
  | fracPart (i : Nat) (q : RatN)
  | copy (i j : Nat)
  | add (i j : Nat)
  | subtract (i j : Nat)
  | times (i j : Nat)
  | timesQ (i : Nat) (q : RatN)
  | div (i : Nat) (d : Int)
  | pow (i : Nat) (p : Int)

/-- arguments are well-formed: rationals are in lowest terms (C01) and divisors are not zero -/
def Cmd.ok : Cmd → Prop
  | .constant _ q => Canonical q
  | .fracPart _ q => Canonical q
  | .timesQ _ q => Canonical q
  | .div _ d => d ≠ 0
  | _ => True

/-- a partial function of time -/
abbrev Fn := ℚ → Option ℚ

/-- `x^p`, undefined for `0^p` with `p < 0`; everything to the power `0` is `1` -/
def powSpec (x : Option ℚ) (p : Int) : Option ℚ :=
  if p = 0 then some 1
  else match x with
    | none => none
    | some v => if v = 0 ∧ p < 0 then none else some (v ^ p)

/-- pointwise lifting of a binary operation -/
def lift2 (f : ℚ → ℚ → ℚ) (x y : Option ℚ) : Option ℚ :=
  x.bind fun a => y.map fun b => f a b

/-- intended effect of one call on the variables -/
def Cmd.exact (c : Cmd) (s : Nat → Fn) : Nat → Fn :=
  match c with
  | .constant i q => Function.update s i fun _ => some q.val
  | .fracPart i q => Function.update s i fun t => some (Int.fract (q.val * t))
  | .copy i j => Function.update s i (s j)
  | .add i j => Function.update s i fun t => lift2 (· + ·) (s i t) (s j t)
  | .subtract i j => Function.update s i fun t => lift2 (· - ·) (s i t) (s j t)
  | .times i j => Function.update s i fun t => lift2 (· * ·) (s i t) (s j t)
  | .timesQ i q => Function.update s i fun t => (s i t).map (· * q.val)
  | .div i d => Function.update s i fun t => (s i t).map (· / (d : ℚ))
  | .pow i p => Function.update s i fun t => powSpec (s i t) p

/-- intended meaning of a program -/
def exact : List Cmd → Nat → Fn
  | cs => cs.foldl (fun s c => c.exact s) (fun _ _ => some 0)

/-! ### execution by the modelled code -/

/-- one call, shared-pointer implementation -/
def Cmd.run (c : Cmd) (s : Nat → Node) : Option (Nat → Node) :=
  match c with
  | .constant i q => some (Function.update s i (Shared.setToConstant q))
  | .fracPart i q => some (Function.update s i (.leaf false q))
  | .copy i j => some (Function.update s i (s j))
  | .add i j => (Shared.add (s i) (s j)).map (Function.update s i)
  | .subtract i j => (Shared.subtract (s i) (s j)).map (Function.update s i)
  | .times i j => some (Function.update s i (Shared.times (s i) (s j)))
  | .timesQ i q => some (Function.update s i (Shared.timesQ (s i) q))
  | .div i d => some (Function.update s i (Shared.div (s i) d))
  | .pow i p => (Shared.pow (s i) p).map (Function.update s i)

/-- a program, from default-constructed variables; `none` is a failed assertion -/
def run (cs : List Cmd) : Option (Nat → Node) :=
  cs.foldlM (fun s c => c.run s) (fun _ => Shared.new)

/-! ### value of a tree -/

/-- value of an expression at time `t`; for the power operator the right child must be an integer -/
def Node.eval (t : ℚ) : Node → Option ℚ
  | .leaf true d => some d.val
  | .leaf false d => some (Int.fract (d.val * t))
  | .node .plus l r => lift2 (· + ·) (l.eval t) (r.eval t)
  | .node .minus l r => lift2 (· - ·) (l.eval t) (r.eval t)
  | .node .times l r => lift2 (· * ·) (l.eval t) (r.eval t)
  | .node .divide l r =>
    (l.eval t).bind fun a => (r.eval t).bind fun b => if b = 0 then none else some (a / b)
  | .node .power l r =>
    (r.eval t).bind fun b =>
      if b.den = 1 then
        (l.eval t).bind fun a => if a = 0 ∧ b.num < 0 then none else some (a ^ b.num)
      else none

/-- all rationals in the tree are in lowest terms -/
def Node.Good : Node → Prop
  | .leaf _ d => Canonical d
  | .node _ l r => l.Good ∧ r.Good

theorem number?_some {n : Node} {a : RatN} (h : n.number? = some a) : n = .leaf true a := by
  cases n with
  | leaf b d => cases b <;> simp_all [Node.number?]
  | node => simp [Node.number?] at h

theorem good_mk (p : Int) : (Node.leaf true (mk' p 1)).Good := (mk'_spec p 1 one_ne_zero).1

theorem val_mk (p : Int) : (mk' p 1).val = p := by
  rw [(mk'_spec p 1 one_ne_zero).2]; simp

theorem add_ok {h p : Node} (gh : h.Good) (gp : p.Good) :
    ∃ n, Shared.add h p = some n ∧ n.Good ∧ ∀ t, n.eval t = lift2 (· + ·) (h.eval t) (p.eval t) := by
  unfold Shared.add
  split
  · rename_i a b ha hb
    obtain rfl := number?_some ha; obtain rfl := number?_some hb
    obtain ⟨r, h1, h2, h3⟩ := add_spec (a := a) (b := b) gh gp
    exact ⟨.leaf true r, by simp [h1], h2, fun t => by simp [Node.eval, lift2, h3]⟩
  · exact ⟨_, rfl, ⟨gh, gp⟩, fun t => rfl⟩

theorem subtract_ok {h p : Node} (gh : h.Good) (gp : p.Good) :
    ∃ n, Shared.subtract h p = some n ∧ n.Good ∧ ∀ t, n.eval t = lift2 (· - ·) (h.eval t) (p.eval t) := by
  unfold Shared.subtract
  split
  · rename_i a b ha hb
    obtain rfl := number?_some ha; obtain rfl := number?_some hb
    obtain ⟨r, h1, h2, h3⟩ := sub_spec (a := a) (b := b) gh gp
    exact ⟨.leaf true r, by simp [h1], h2, fun t => by simp [Node.eval, lift2, h3]⟩
  · exact ⟨_, rfl, ⟨gh, gp⟩, fun t => rfl⟩

theorem times_ok {h p : Node} (gh : h.Good) (gp : p.Good) :
    (Shared.times h p).Good ∧ ∀ t, (Shared.times h p).eval t = lift2 (· * ·) (h.eval t) (p.eval t) := by
  unfold Shared.times
  split
  · rename_i a b ha hb
    obtain rfl := number?_some ha; obtain rfl := number?_some hb
    obtain ⟨h2, h3⟩ := mul_spec (a := a) (b := b) gh gp
    exact ⟨h2, fun t => by simp [Node.eval, lift2, h3]⟩
  · exact ⟨⟨gh, gp⟩, fun t => rfl⟩

theorem timesQ_ok {h : Node} {q : RatN} (gh : h.Good) (gq : Canonical q) :
    (Shared.timesQ h q).Good ∧ ∀ t, (Shared.timesQ h q).eval t = (h.eval t).map (· * q.val) := by
  unfold Shared.timesQ
  split
  · rename_i a ha
    obtain rfl := number?_some ha
    obtain ⟨h2, h3⟩ := mul_spec (a := a) (b := q) gh gq
    exact ⟨h2, fun t => by simp [Node.eval, h3]⟩
  · refine ⟨⟨gh, gq⟩, fun t => ?_⟩
    cases h1 : h.eval t <;> simp [Node.eval, lift2, h1]

theorem div_ok {h : Node} {d : Int} (gh : h.Good) (hd : d ≠ 0) :
    (Shared.div h d).Good ∧ ∀ t, (Shared.div h d).eval t = (h.eval t).map (· / (d : ℚ)) := by
  unfold Shared.div
  split
  · rename_i h1; subst h1
    refine ⟨gh, fun t => ?_⟩
    cases h1 : h.eval t <;> simp
  · split
    · rename_i a ha
      obtain rfl := number?_some ha
      obtain ⟨h2, h3⟩ := divZ_spec (a := a) gh d hd
      exact ⟨h2, fun t => by simp [Node.eval, h3]⟩
    · refine ⟨⟨gh, good_mk d⟩, fun t => ?_⟩
      have : (d : ℚ) ≠ 0 := by exact_mod_cast hd
      cases h1 : h.eval t <;> simp [Node.eval, h1, val_mk, this]

theorem eval_power_node (h : Node) (p : Int) (t : ℚ) (hp : p ≠ 0) :
    (Node.node .power h (.leaf true (mk' p 1))).eval t = powSpec (h.eval t) p := by
  simp only [Node.eval, val_mk, powSpec, Option.bind_some, Rat.den_intCast, Rat.num_intCast, if_true, if_neg hp]
  cases h.eval t <;> rfl

theorem pow_ok {h : Node} {p : Int} (gh : h.Good) :
    (∃ n, Shared.pow h p = some n ∧ n.Good ∧ ∀ t, n.eval t = powSpec (h.eval t) p) ∨
    (Shared.pow h p = none ∧ p < 0 ∧ ∀ t, h.eval t = some 0) := by
  unfold Shared.pow
  split
  · rename_i h0; subst h0
    exact Or.inl ⟨_, rfl, good_mk 1, fun t => by simp [Node.eval, val_mk, powSpec]⟩
  · rename_i h0
    split
    · rename_i a ha
      obtain rfl := number?_some ha
      by_cases hz : p < 0 ∧ a.val = 0
      · right
        refine ⟨?_, hz.1, fun t => by simp [Node.eval, hz.2]⟩
        have hn : a.num = 0 := by
          by_contra hn
          exact (val_ne_zero_iff gh).2 hn hz.2
        have h1 := hz.1
        simp only [power, Option.map_eq_none_iff]
        rw [if_neg (by omega), if_pos h1, if_pos hn]
      · left
        obtain ⟨r, h1, h2, h3⟩ := power_spec (a := a) gh p (fun hp hv => hz ⟨hp, hv⟩)
        refine ⟨.leaf true r, by simp [h1], h2, fun t => ?_⟩
        have : ¬ (a.val = 0 ∧ p < 0) := fun hh => hz ⟨hh.2, hh.1⟩
        simp only [Node.eval, powSpec, if_neg h0, if_neg this, h3]
    · exact Or.inl ⟨_, rfl, ⟨gh, good_mk p⟩, fun t => eval_power_node h p t h0⟩

/-- the state of the program matches the intended state -/
def Agrees (s : Nat → Node) (f : Nat → Fn) : Prop := ∀ i, (s i).Good ∧ ∀ t, (s i).eval t = f i t

theorem agrees_update {s : Nat → Node} {f : Nat → Fn} (h : Agrees s f) (i : Nat) {n : Node} {g : Fn}
    (hn : n.Good) (hg : ∀ t, n.eval t = g t) : Agrees (Function.update s i n) (Function.update f i g) := by
  intro k
  by_cases hk : k = i
  · subst hk; simp only [Function.update_self]; exact ⟨hn, hg⟩
  · simp only [Function.update_of_ne hk]; exact h k

/-- the call fails: a variable that is constantly zero is raised to a negative power -/
def Cmd.Fails (c : Cmd) (f : Nat → Fn) : Prop :=
  ∃ i p, c = .pow i p ∧ p < 0 ∧ ∀ t, f i t = some 0

theorem step_ok (c : Cmd) (hc : c.ok) {s : Nat → Node} {f : Nat → Fn} (h : Agrees s f) :
    (∃ s', c.run s = some s' ∧ Agrees s' (c.exact f)) ∨ (c.run s = none ∧ c.Fails f) := by
  cases c with
  | constant i q => exact Or.inl ⟨_, rfl, agrees_update h i hc fun t => rfl⟩
  | fracPart i q => exact Or.inl ⟨_, rfl, agrees_update h i hc fun t => rfl⟩
  | copy i j => exact Or.inl ⟨_, rfl, agrees_update h i (h j).1 (h j).2⟩
  | add i j =>
    obtain ⟨n, h1, h2, h3⟩ := add_ok (h i).1 (h j).1
    exact Or.inl ⟨_, by simp [Cmd.run, h1], agrees_update h i h2 fun t => by rw [h3, (h i).2, (h j).2]⟩
  | subtract i j =>
    obtain ⟨n, h1, h2, h3⟩ := subtract_ok (h i).1 (h j).1
    exact Or.inl ⟨_, by simp [Cmd.run, h1], agrees_update h i h2 fun t => by rw [h3, (h i).2, (h j).2]⟩
  | times i j =>
    obtain ⟨h2, h3⟩ := times_ok (h i).1 (h j).1
    exact Or.inl ⟨_, rfl, agrees_update h i h2 fun t => by rw [h3, (h i).2, (h j).2]⟩
  | timesQ i q =>
    obtain ⟨h2, h3⟩ := timesQ_ok (h i).1 hc
    exact Or.inl ⟨_, rfl, agrees_update h i h2 fun t => by rw [h3, (h i).2]⟩
  | div i d =>
    obtain ⟨h2, h3⟩ := div_ok (h i).1 hc
    exact Or.inl ⟨_, rfl, agrees_update h i h2 fun t => by rw [h3, (h i).2]⟩
  | pow i p =>
    rcases pow_ok (p := p) (h i).1 with ⟨n, h1, h2, h3⟩ | ⟨h1, h2, h3⟩
    · exact Or.inl ⟨_, by simp [Cmd.run, h1], agrees_update h i h2 fun t => by rw [h3, (h i).2]⟩
    · refine Or.inr ⟨by simp [Cmd.run, h1], i, p, rfl, h2, fun t => ?_⟩
      rw [← (h i).2, h3]

theorem run_ok (cs : List Cmd) (hc : ∀ c ∈ cs, c.ok) (s : Nat → Node) (f : Nat → Fn) (h : Agrees s f) :
    (∃ s', cs.foldlM (fun s c => Cmd.run c s) s = some s' ∧ Agrees s' (cs.foldl (fun s c => c.exact s) f)) ∨
    (cs.foldlM (fun s c => Cmd.run c s) s = none ∧
      ∃ pre c post, cs = pre ++ c :: post ∧ c.Fails (pre.foldl (fun s c => c.exact s) f)) := by
  induction cs generalizing s f with
  | nil => exact Or.inl ⟨s, rfl, h⟩
  | cons c cs ih =>
    rcases step_ok c (hc c (List.mem_cons_self ..)) h with ⟨s', h1, h2⟩ | ⟨h1, h2⟩
    · rcases ih (fun x hx => hc x (List.mem_cons_of_mem _ hx)) s' _ h2 with ⟨s2, h3, h4⟩ | ⟨h3, pre, d, post, h4, h5⟩
      · exact Or.inl ⟨s2, by simp [List.foldlM_cons, h1, h3], h4⟩
      · exact Or.inr ⟨by simp [List.foldlM_cons, h1, h3], c :: pre, d, post, by simp [h4], h5⟩
    · exact Or.inr ⟨by simp [List.foldlM_cons, h1], [], c, cs, rfl, h2⟩

theorem agrees_init : Agrees (fun _ => Shared.new) (fun _ _ => some 0) :=
  fun _ => ⟨good_mk 0, fun t => by simp [Shared.new, Node.eval, val_mk]⟩

/-- **C32** After any program of calls, every variable holds an expression whose value at every time is the
intended one. -/
theorem c32_denotes (cs : List Cmd) (hc : ∀ c ∈ cs, c.ok) (s : Nat → Node) (hs : run cs = some s)
    (i : Nat) (t : ℚ) : (s i).eval t = exact cs i t := by
  rcases run_ok cs hc _ _ agrees_init with ⟨s', h1, h2⟩ | ⟨h1, -⟩
  · have : s' = s := by
      have := h1.symm.trans hs
      exact Option.some.inj this
    subst this
    exact (h2 i).2 t
  · rw [show run cs = none from h1] at hs; cases hs

/-- **C32** The only way for a program to stop is to raise the constant zero to a negative power. -/
theorem c32_stops_only_at_zero_power (cs : List Cmd) (hc : ∀ c ∈ cs, c.ok) (hs : run cs = none) :
    ∃ pre i p post, cs = pre ++ .pow i p :: post ∧ p < 0 ∧ ∀ t, exact pre i t = some 0 := by
  rcases run_ok cs hc _ _ agrees_init with ⟨s', h1, -⟩ | ⟨-, pre, c, post, h2, i, p, h3, h4, h5⟩
  · rw [show run cs = some s' from h1] at hs; cases hs
  · exact ⟨pre, i, p, post, by rw [h2, h3], h4, h5⟩

/-- **C32** `f == x` is sound: it answers yes only for the constant function `x`. -/
theorem c32_compare_sound (cs : List Cmd) (hc : ∀ c ∈ cs, c.ok) (s : Nat → Node) (hs : run cs = some s)
    (i : Nat) (x : Int) (h : Shared.eqInt (s i) x = true) (t : ℚ) : exact cs i t = some (x : ℚ) := by
  rw [← c32_denotes cs hc s hs]
  unfold Shared.eqInt at h
  split at h
  · rename_i a ha
    rw [number?_some ha]
    simp only [eqZ, Bool.and_eq_true, beq_iff_eq] at h
    simp [Node.eval, RatN.val, h.1, h.2]
  · cases h

/-- **C32** `f == x` answers yes for a variable just set to the constant `x`. -/
theorem c32_compare_constant (x : Int) : Shared.eqInt (Shared.setToConstant (mk' x 1)) x = true := by
  have h := mk'_spec x 1 one_ne_zero
  have : mk' x 1 = ⟨x, 1⟩ := canonical_ext h.1 ⟨Int.one_pos, by simp⟩ (by rw [h.2]; rfl)
  simp [Shared.eqInt, Shared.setToConstant, Node.number?, this, eqZ]

/-- a non-trivial program: `x0 = ({t·1/3} + 2)^2 / 5 - x1`, where `x1` is the constant `1/2` -/
def demo : List Cmd :=
  [.fracPart 0 ⟨1, 3⟩, .constant 1 ⟨2, 1⟩, .add 0 1, .pow 0 2, .div 0 5, .constant 1 ⟨1, 2⟩, .subtract 0 1]

example : ∀ c ∈ demo, c.ok := by
  simp only [demo, List.mem_cons, List.not_mem_nil, or_false]
  rintro c (rfl | rfl | rfl | rfl | rfl | rfl | rfl) <;> simp [Cmd.ok, Canonical]

example : (run demo).isSome = true := by rfl

/-- the running example has value `(1/3+2)^2/5 - 1/2` at `t = 4` -/
example : exact demo 0 4 = some (((1/3 : ℚ) + 2) ^ 2 / 5 - 1/2) := by
  have hf : Int.fract ((1 / 3 : ℚ) * 4) = 1 / 3 := by
    rw [Int.fract_eq_iff]; refine ⟨by norm_num, by norm_num, 1, by norm_num⟩
  have hf' : Int.fract ((3 : ℚ)⁻¹ * 4) = 3⁻¹ := by simpa using hf
  simp [exact, demo, Cmd.exact, lift2, powSpec, RatN.val, Function.update, hf']

example : run [.constant 0 ⟨0, 1⟩, .pow 0 (-2)] = none := by rfl

/-! ### text -/

/-- drop an expected prefix -/
def eat (p s : List Char) : Option (List Char) :=
  if p.isPrefixOf s then some (s.drop p.length) else none

theorem eat_append (p s : List Char) : eat p (p ++ s) = some s := by
  simp [eat]

/-- read one operator symbol -/
def readOp (s : List Char) : Option (Op × List Char) :=
  match eat [' ', '+', ' '] s with
  | some r => some (.plus, r)
  | none => match eat [' ', '-', ' '] s with
    | some r => some (.minus, r)
    | none => match s with
      | '*' :: r => some (.times, r)
      | '/' :: r => some (.divide, r)
      | '^' :: r => some (.power, r)
      | _ => none

theorem readOp_text (o : Op) (s : List Char) : readOp (o.text ++ s) = some (o, s) := by
  cases o <;> simp [readOp, Op.text, eat, List.isPrefixOf]

/-- A reader for the printed form, written from the grammar
`E ::= (number) | ( MOD( t * (number), 1 ) ) | (E op E)`; the first argument bounds the nesting depth. -/
def readExpr : Nat → List Char → Option (Node × List Char)
  | 0, _ => none
  | fuel + 1, s =>
    match eat ['(', ' ', 'M', 'O', 'D', '(', ' ', 't', ' ', '*', ' ', '('] s with
    | some r =>
      (Latte.Rational.read r).bind fun (q, r) => (eat [')', ',', ' ', '1', ' ', ')', ' ', ')'] r).map fun r => (.leaf false q, r)
    | none =>
      match eat ['(', '('] s with
      | some _ =>
        (readExpr fuel (s.drop 1)).bind fun (a, r) =>
          (readOp r).bind fun (o, r) =>
            (readExpr fuel r).bind fun (b, r) =>
              (eat [')'] r).map fun r => (.node o a b, r)
      | none =>
        (eat ['('] s).bind fun r =>
          (Latte.Rational.read r).bind fun (q, r) => (eat [')'] r).map fun r => (.leaf true q, r)

/-- nesting depth -/
def Node.depth : Node → Nat
  | .leaf _ _ => 1
  | .node _ l r => max l.depth r.depth + 1

theorem print_paren (n : Node) : ∃ r, n.print = '(' :: r := by
  cases n with
  | leaf b d => cases b <;> exact ⟨_, rfl⟩
  | node => exact ⟨_, rfl⟩

theorem stops_paren (s : List Char) : Stops (')' :: s) := by
  intro c hc; simp at hc; subst hc; decide

theorem read_print_paren (q : RatN) (hq : Canonical q) (s : List Char) :
    Latte.Rational.read (Latte.Rational.print q ++ ')' :: s) = some (q, ')' :: s) := by
  have := c03_print_read q hq [] (')' :: s) (by simp) (stops_paren s)
  simpa using this

/-- **C32** The printed text determines the expression: reading what was printed (followed by anything)
gives back the same expression, hence the same function of `t`. -/
theorem c32_print_read (n : Node) (hn : n.Good) (fuel : Nat) (hf : n.depth ≤ fuel) (rest : List Char) :
    readExpr fuel (n.print ++ rest) = some (n, rest) := by
  induction n generalizing fuel rest with
  | leaf b d =>
    cases fuel with
    | zero => simp [Node.depth] at hf
    | succ fuel =>
      cases b with
      | false =>
        have h1 : (Node.leaf false d).print ++ rest =
            ['(', ' ', 'M', 'O', 'D', '(', ' ', 't', ' ', '*', ' ', '('] ++ (Latte.Rational.print d ++ (')' :: ([',', ' ', '1', ' ', ')', ' ', ')'] ++ rest))) := by
          simp [Node.print]
        rw [h1, readExpr, eat_append]
        simp only [read_print_paren d hn, Option.bind_some]
        rw [show (')' :: ([',', ' ', '1', ' ', ')', ' ', ')'] ++ rest)) = [')', ',', ' ', '1', ' ', ')', ' ', ')'] ++ rest by simp, eat_append]
        rfl
      | true =>
        obtain ⟨c, cs, hz, hc, -⟩ := printInt_cons d.num
        have h1 : (Node.leaf true d).print ++ rest = '(' :: (Latte.Rational.print d ++ ')' :: rest) := by
          simp [Node.print]
        have h2 : ∃ l, Latte.Rational.print d ++ ')' :: rest = c :: l := by
          simp [Latte.Rational.print, hz]
        obtain ⟨l, hl⟩ := h2
        have hsp : c ≠ ' ' := by rcases hc with h | h <;> rintro rfl <;> revert h <;> decide
        have hpar : c ≠ '(' := by rcases hc with h | h <;> rintro rfl <;> revert h <;> decide
        have e1 : eat ['(', ' ', 'M', 'O', 'D', '(', ' ', 't', ' ', '*', ' ', '('] ('(' :: (Latte.Rational.print d ++ ')' :: rest)) = none := by
          rw [hl]; simp [eat, List.isPrefixOf, Ne.symm hsp]
        have e2 : eat ['(', '('] ('(' :: (Latte.Rational.print d ++ ')' :: rest)) = none := by
          rw [hl]; simp [eat, List.isPrefixOf, Ne.symm hpar]
        have e3 : eat ['('] ('(' :: (Latte.Rational.print d ++ ')' :: rest)) =
            some (Latte.Rational.print d ++ ')' :: rest) := eat_append ['('] _
        rw [h1, readExpr, e1, e2, e3]
        simp only [Option.bind_some, read_print_paren d hn]
        rw [show (')' :: rest) = [')'] ++ rest from rfl, eat_append]
        rfl
  | node o l r ihl ihr =>
    cases fuel with
    | zero => simp [Node.depth] at hf
    | succ fuel =>
      simp only [Node.depth] at hf
      have h1 : (Node.node o l r).print ++ rest =
          '(' :: (l.print ++ (o.text ++ (r.print ++ ([')'] ++ rest)))) := by
        simp [Node.print]
      obtain ⟨x, hx⟩ := print_paren l
      have e1 : eat ['(', ' ', 'M', 'O', 'D', '(', ' ', 't', ' ', '*', ' ', '('] ('(' :: (l.print ++ (o.text ++ (r.print ++ ([')'] ++ rest))))) = none := by
        rw [hx]; simp [eat, List.isPrefixOf]
      have e2 : eat ['(', '('] ('(' :: (l.print ++ (o.text ++ (r.print ++ ([')'] ++ rest))))) =
          some (x ++ (o.text ++ (r.print ++ ([')'] ++ rest)))) := by
        rw [hx]; exact eat_append ['(', '('] _
      rw [h1, readExpr, e1, e2]
      simp only [List.drop_succ_cons, List.drop_zero]
      rw [ihl hn.1 fuel (by omega)]
      simp only [Option.bind_some, readOp_text]
      rw [ihr hn.2 fuel (by omega)]
      simp only [Option.bind_some, eat_append]
      rfl

/-- **C32** End to end: what is printed for a variable after any program is read back as an expression
whose value is the intended one. -/
theorem c32_text_denotes (cs : List Cmd) (hc : ∀ c ∈ cs, c.ok) (s : Nat → Node) (hs : run cs = some s) (i : Nat) :
    ∃ n fuel, readExpr fuel (s i).print = some (n, []) ∧ ∀ t, n.eval t = exact cs i t := by
  refine ⟨s i, (s i).depth, ?_, fun t => c32_denotes cs hc s hs i t⟩
  have hg : (s i).Good := by
    rcases run_ok cs hc _ _ agrees_init with ⟨s', h1, h2⟩ | ⟨h1, -⟩
    · have : s' = s := Option.some.inj (h1.symm.trans hs)
      subst this; exact (h2 i).1
    · rw [show run cs = none from h1] at hs; cases hs
  simpa using c32_print_read (s i) hg _ le_rfl []

example : (Node.node .power (.leaf false ⟨2, 5⟩) (.leaf true ⟨10, 1⟩)).print =
    "(( MOD( t * (2/5), 1 ) )^(10))".toList := by decide +kernel

/-! ### C58: the fallback implementation -/

/-- value of a raw-pointer variable; the null pointer stands for zero -/
def evalRaw (t : ℚ) : Option Node → Option ℚ
  | none => some 0
  | some n => n.eval t

/-- **C58, violated.** In the raw-pointer implementation subtracting `p` from a default-constructed function gives
`p` instead of `-p`: for every expression `p` whose value is not zero at `t`. -/
theorem c58_subtract_from_default_wrong (p : Node) (t v : ℚ) (hv : p.eval t = some v) (h0 : v ≠ 0) :
    ∃ n, Raw.subtract none (some p) = .ok n ∧ evalRaw t n = some v ∧
      evalRaw t n ≠ lift2 (· - ·) (evalRaw t none) (evalRaw t (some p)) := by
  refine ⟨some p, rfl, hv, ?_⟩
  simp only [evalRaw, hv, lift2, Option.bind_some, Option.map_some, ne_eq, Option.some.injEq]
  intro h
  apply h0
  linarith

/-- **C58, violated.** Multiplying a non-null function by a default-constructed one dereferences a null pointer. -/
theorem c58_times_default_null (h : Node) : Raw.times (some h) none = .nullDeref := rfl

example : (Node.leaf true ⟨3, 1⟩).eval 0 = some 3 := by simp [Node.eval, RatN.val]

/-- all rationals in a raw-pointer variable are in lowest terms -/
def GoodRaw : Option Node → Prop
  | none => True
  | some n => n.Good

/-- **C58** What does hold for the fallback: addition, multiplication by a number, division and positive powers are
right for every function, and subtraction and multiplication are right if neither operand is null. -/
theorem c58_other_operations_partial (h p : Option Node) (gh : GoodRaw h) (gp : GoodRaw p) :
    (∃ n, Raw.add h p = .ok n ∧ GoodRaw n ∧ ∀ t, evalRaw t n = lift2 (· + ·) (evalRaw t h) (evalRaw t p)) ∧
    (h ≠ none → ∃ n, Raw.subtract h p = .ok n ∧ GoodRaw n ∧
      ∀ t, evalRaw t n = lift2 (· - ·) (evalRaw t h) (evalRaw t p)) ∧
    (h ≠ none → p ≠ none → ∃ n, Raw.times h p = .ok n ∧ GoodRaw n ∧
      ∀ t, evalRaw t n = lift2 (· * ·) (evalRaw t h) (evalRaw t p)) ∧
    (∀ q, Canonical q → ∃ n, Raw.timesQ h q = .ok n ∧ GoodRaw n ∧
      ∀ t, evalRaw t n = (evalRaw t h).map (· * q.val)) ∧
    (∀ d : Int, d ≠ 0 → ∃ n, Raw.div h d = .ok n ∧ GoodRaw n ∧
      ∀ t, evalRaw t n = (evalRaw t h).map (· / (d : ℚ))) ∧
    (∀ e : Int, 0 ≤ e → ∃ n, Raw.pow h e = .ok n ∧ GoodRaw n ∧ ∀ t, evalRaw t n = powSpec (evalRaw t h) e) := by
  refine ⟨?_, ?_, ?_, ?_, ?_, ?_⟩
  · cases p with
    | none =>
      refine ⟨h, rfl, gh, fun t => ?_⟩
      cases hh : evalRaw t h <;> simp [lift2, evalRaw]
    | some p =>
      cases h with
      | none =>
        refine ⟨some p, rfl, gp, fun t => ?_⟩
        cases hh : p.eval t <;> simp [lift2, evalRaw, hh]
      | some h =>
        obtain ⟨n, h1, h2, h3⟩ := add_ok (h := h) (p := p) gh gp
        refine ⟨some n, ?_, h2, h3⟩
        unfold Shared.add at h1
        simp only [Raw.add]
        split <;> simp_all [Option.map_eq_some_iff]
        obtain ⟨a, ha, rfl⟩ := h1
        simp [ha, Raw.Res.num]
  · intro hne
    cases h with
    | none => exact absurd rfl hne
    | some h =>
      cases p with
      | none =>
        refine ⟨some h, rfl, gh, fun t => ?_⟩
        cases hh : h.eval t <;> simp [lift2, evalRaw, hh]
      | some p =>
        obtain ⟨n, h1, h2, h3⟩ := subtract_ok (h := h) (p := p) gh gp
        refine ⟨some n, ?_, h2, h3⟩
        unfold Shared.subtract at h1
        simp only [Raw.subtract]
        split <;> simp_all [Option.map_eq_some_iff]
        obtain ⟨a, ha, rfl⟩ := h1
        simp [ha, Raw.Res.num]
  · intro hne hne'
    cases h with
    | none => exact absurd rfl hne
    | some h =>
      cases p with
      | none => exact absurd rfl hne'
      | some p =>
        obtain ⟨h2, h3⟩ := times_ok (h := h) (p := p) gh gp
        refine ⟨some (Shared.times h p), ?_, h2, h3⟩
        simp only [Raw.times, Shared.times]
        split <;> simp_all
  · intro q hq
    cases h with
    | none => exact ⟨none, rfl, trivial, fun t => by simp [evalRaw]⟩
    | some h =>
      obtain ⟨h2, h3⟩ := timesQ_ok (h := h) gh hq
      refine ⟨some (Shared.timesQ h q), ?_, h2, h3⟩
      simp only [Raw.timesQ, Shared.timesQ]
      split <;> simp_all
  · intro d hd
    cases h with
    | none =>
      refine ⟨none, ?_, trivial, fun t => by simp [evalRaw]⟩
      simp [Raw.div]
    | some h =>
      obtain ⟨h2, h3⟩ := div_ok (h := h) gh hd
      refine ⟨some (Shared.div h d), ?_, h2, h3⟩
      simp only [Raw.div, Shared.div]
      split
      · rfl
      · split <;> simp_all
  · intro e he
    by_cases e0 : e = 0
    · subst e0
      exact ⟨_, rfl, good_mk 1, fun t => by simp [evalRaw, Node.eval, val_mk, powSpec]⟩
    cases h with
    | none =>
      refine ⟨none, by simp [Raw.pow, e0], trivial, fun t => ?_⟩
      have h0 : (0 : ℚ) ^ e = 0 := zero_zpow e e0
      have h1 : ¬ e < 0 := by omega
      simp [evalRaw, powSpec, e0, h0, h1]
    | some h =>
      by_cases e1 : e = 1
      · subst e1
        refine ⟨some h, by simp [Raw.pow], gh, fun t => ?_⟩
        cases hh : h.eval t <;> simp [evalRaw, powSpec, hh]
      rcases pow_ok (h := h) (p := e) gh with ⟨n, h1, h2, h3⟩ | ⟨-, h2, -⟩
      · refine ⟨some n, ?_, h2, h3⟩
        simp only [Shared.pow, if_neg e0] at h1
        simp only [Raw.pow, if_neg e0, if_neg e1]
        split <;> simp_all [Option.map_eq_some_iff]
        obtain ⟨a, ha, rfl⟩ := h1
        simp [ha, Raw.Res.num]
      · omega

end Verif.Periodic
