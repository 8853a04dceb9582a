import Verif.Common.Decimal
import Mathlib.Algebra.Field.Basic
import Mathlib.Algebra.GroupWithZero.Basic

/-!
# Specification: reading arithmetic expressions (C82)

Independent of the program: the part of the language of Maple (and of most computer algebra systems) that the generating function files use — natural
numbers, indexed variables `x[i]`, the four operations, powers with literal integer exponents, parentheses; `*` and `/` bind more strongly than `+` and
`-`, both are left associative, powers bind most strongly.
-/

namespace Verif.GenFile

open Latte.Decimal

/-- Tokens. -/
inductive Tok where
  | num (k : ℕ)
  | var (i : ℕ)
  | plus | minus | times | div | pow | lpar | rpar
  deriving DecidableEq, Repr

/-- Expressions. -/
inductive Ex where
  | num (k : ℕ)
  | var (i : ℕ)
  | neg (a : Ex)
  | add (a b : Ex)
  | sub (a b : Ex)
  | mul (a b : Ex)
  | div (a b : Ex)
  | pow (a : Ex) (e : ℤ)
  deriving DecidableEq, Repr

/-! ## Characters to tokens -/

/-- The characters that are tokens. -/
def symbol (c : Char) : Option Tok :=
  if c = '+' then some .plus else if c = '-' then some .minus else if c = '*' then some .times else if c = '/' then some .div
  else if c = '^' then some .pow else if c = '(' then some .lpar else if c = ')' then some .rpar else none

/-- Where in a token one is: between tokens, in a number, after `x`, after `x[`, in an index. -/
inductive Mode where
  | idle
  | num (k : ℕ)
  | name
  | bracket
  | index (k : ℕ)

/-- The tokens of a text; white space separates tokens. -/
def lex : Mode → List Char → Option (List Tok)
  | .idle, [] => some []
  | .num k, [] => some [.num k]
  | .name, [] => none
  | .bracket, [] => none
  | .index _, [] => none
  | .idle, c :: cs =>
    if isDigit c then lex (.num (digitVal c)) cs
    else if isSpace c then lex .idle cs
    else if c = 'x' then lex .name cs
    else match symbol c with
      | some t => (lex .idle cs).map (t :: ·)
      | none => none
  | .num k, c :: cs =>
    if isDigit c then lex (.num (10 * k + digitVal c)) cs
    else if isSpace c then (lex .idle cs).map (.num k :: ·)
    else match symbol c with
      | some t => (lex .idle cs).map fun ts => .num k :: t :: ts
      | none => none
  | .name, c :: cs => if c = '[' then lex .bracket cs else none
  | .bracket, c :: cs => if isDigit c then lex (.index (digitVal c)) cs else none
  | .index k, c :: cs =>
    if isDigit c then lex (.index (10 * k + digitVal c)) cs
    else if c = ']' then (lex .idle cs).map (.var k :: ·)
    else none

/-! ## Tokens to expressions -/

/-- Syntactic categories. -/
inductive Cat where
  | expr | term | factor | atom

/-- **The grammar.** `Is c s a`: the token string `s` is of category `c` and means the expression `a`. -/
inductive Is : Cat → List Tok → Ex → Prop where
  | term {s a} : Is .term s a → Is .expr s a
  | neg {s a} : Is .term s a → Is .expr (.minus :: s) (.neg a)
  | add {s t a b} : Is .expr s a → Is .term t b → Is .expr (s ++ .plus :: t) (.add a b)
  | sub {s t a b} : Is .expr s a → Is .term t b → Is .expr (s ++ .minus :: t) (.sub a b)
  | factor {s a} : Is .factor s a → Is .term s a
  | mul {s t a b} : Is .term s a → Is .factor t b → Is .term (s ++ .times :: t) (.mul a b)
  | div {s t a b} : Is .term s a → Is .factor t b → Is .term (s ++ .div :: t) (.div a b)
  | atom {s a} : Is .atom s a → Is .factor s a
  | pow {s a} (k : ℕ) : Is .atom s a → Is .factor (s ++ [.pow, .num k]) (.pow a k)
  | powNeg {s a} (k : ℕ) : Is .atom s a → Is .factor (s ++ [.pow, .lpar, .minus, .num k, .rpar]) (.pow a (-k))
  | num (k : ℕ) : Is .atom [.num k] (.num k)
  | var (i : ℕ) : Is .atom [.var i] (.var i)
  | paren {s a} : Is .expr s a → Is .atom (.lpar :: (s ++ [.rpar])) a

/-- The text `s` is the expression `a`. -/
def Reads (s : List Char) (a : Ex) : Prop := ∃ ts, lex .idle s = some ts ∧ Is .expr ts a

/-! ## The value of an expression -/

/-- The value at a point, `none` if there is a division by zero. -/
noncomputable def value {K : Type*} [Field K] (x : ℕ → K) : Ex → Option K
  | .num k => some k
  | .var i => some (x i)
  | .neg a => (value x a).map fun u => -u
  | .add a b => (value x a).bind fun u => (value x b).map fun v => u + v
  | .sub a b => (value x a).bind fun u => (value x b).map fun v => u - v
  | .mul a b => (value x a).bind fun u => (value x b).map fun v => u * v
  | .div a b => (value x a).bind fun u => (value x b).bind fun v => by
      classical exact if v = 0 then none else some (u / v)
  | .pow a e => (value x a).bind fun u => by
      classical exact if u = 0 ∧ e < 0 then none else some (u ^ e)

/-- The text `s` is an expression with value `v` at `x`. -/
def HasValue {K : Type*} [Field K] (x : ℕ → K) (s : List Char) (v : K) : Prop := ∃ a, Reads s a ∧ value x a = some v

/-! ## The grammar is unambiguous

A deterministic reader with a stack finds the expression of every derivation. -/

/-- An open parenthesis: what to do with the term, and with the factor, that is being read. -/
structure Frame where
  sum : Ex → Ex
  prod : Ex → Ex

/-- What is expected next. -/
inductive Stage where
  | operand (start : Bool)
  | got (a : Ex) (isAtom : Bool)
  | exponent (a : Ex)
  | exponentParen (a : Ex)
  | exponentMinus (a : Ex)
  | exponentClose (a : Ex) (k : ℕ)

def fresh : Frame := ⟨id, id⟩

/-- One token. -/
def step : List Frame × Stage → Tok → Option (List Frame × Stage)
  | (fs, .operand _), .num k => some (fs, .got (.num k) true)
  | (fs, .operand _), .var i => some (fs, .got (.var i) true)
  | (fs, .operand _), .lpar => some (fresh :: fs, .operand true)
  | (f :: fs, .operand true), .minus => some (⟨fun a => f.sum (.neg a), f.prod⟩ :: fs, .operand false)
  | (f :: fs, .got a _), .plus => some (⟨fun b => .add (f.sum (f.prod a)) b, id⟩ :: fs, .operand false)
  | (f :: fs, .got a _), .minus => some (⟨fun b => .sub (f.sum (f.prod a)) b, id⟩ :: fs, .operand false)
  | (f :: fs, .got a _), .times => some (⟨f.sum, fun b => .mul (f.prod a) b⟩ :: fs, .operand false)
  | (f :: fs, .got a _), .div => some (⟨f.sum, fun b => .div (f.prod a) b⟩ :: fs, .operand false)
  | (f :: fs, .got a _), .rpar => some (fs, .got (f.sum (f.prod a)) true)
  | (fs, .got a true), .pow => some (fs, .exponent a)
  | (fs, .exponent a), .num k => some (fs, .got (.pow a k) false)
  | (fs, .exponent a), .lpar => some (fs, .exponentParen a)
  | (fs, .exponentParen a), .minus => some (fs, .exponentMinus a)
  | (fs, .exponentMinus a), .num k => some (fs, .exponentClose a k)
  | (fs, .exponentClose a k), .rpar => some (fs, .got (.pow a (-k)) false)
  | _, _ => none

def run : List Frame × Stage → List Tok → Option (List Frame × Stage)
  | s, [] => some s
  | s, t :: ts => (step s t).bind fun s => run s ts

/-- What the reader does with a string of each category. -/
def Ran : Cat → List Tok → Ex → Prop
  | .expr, s, e => ∀ fs, ∃ (f : Frame) (a : Ex) (b : Bool), f.sum (f.prod a) = e ∧
      ∀ rest, run (fresh :: fs, .operand true) (s ++ rest) = run (f :: fs, .got a b) rest
  | .term, s, e => ∀ (g : Ex → Ex) fs st, ∃ (p : Ex → Ex) (a : Ex) (b : Bool), p a = e ∧
      ∀ rest, run (⟨g, id⟩ :: fs, .operand st) (s ++ rest) = run (⟨g, p⟩ :: fs, .got a b) rest
  | .factor, s, e => ∀ f fs st, ∃ b, ∀ rest, run (f :: fs, .operand st) (s ++ rest) = run (f :: fs, .got e b) rest
  | .atom, s, e => ∀ f fs st rest, run (f :: fs, .operand st) (s ++ rest) = run (f :: fs, .got e true) rest

theorem ran {c : Cat} {s : List Tok} {e : Ex} (h : Is c s e) : Ran c s e := by
  induction h with
  | term _ ih =>
    intro fs
    obtain ⟨p, a, b, h1, h2⟩ := ih id fs true
    exact ⟨⟨id, p⟩, a, b, h1, h2⟩
  | neg _ ih =>
    intro fs
    obtain ⟨p, a, b, h1, h2⟩ := ih (fun a => .neg a) fs false
    refine ⟨⟨fun a => .neg a, p⟩, a, b, by rw [← h1], fun rest => ?_⟩
    rw [← h2]
    rfl
  | @add s t a b _ _ ih1 ih2 =>
    intro fs
    obtain ⟨f, u, c, h1, h2⟩ := ih1 fs
    obtain ⟨p, v, d, h3, h4⟩ := ih2 (fun b => .add (f.sum (f.prod u)) b) fs false
    refine ⟨⟨fun b => .add (f.sum (f.prod u)) b, p⟩, v, d, by simp only [h1, h3], fun rest => ?_⟩
    rw [List.append_assoc, h2, ← h4]
    rfl
  | @sub s t a b _ _ ih1 ih2 =>
    intro fs
    obtain ⟨f, u, c, h1, h2⟩ := ih1 fs
    obtain ⟨p, v, d, h3, h4⟩ := ih2 (fun b => .sub (f.sum (f.prod u)) b) fs false
    refine ⟨⟨fun b => .sub (f.sum (f.prod u)) b, p⟩, v, d, by simp only [h1, h3], fun rest => ?_⟩
    rw [List.append_assoc, h2, ← h4]
    rfl
  | factor _ ih =>
    intro g fs st
    obtain ⟨b, h⟩ := ih ⟨g, id⟩ fs st
    exact ⟨id, _, b, rfl, h⟩
  | @mul s t a b _ _ ih1 ih2 =>
    intro g fs st
    obtain ⟨p, u, c, h1, h2⟩ := ih1 g fs st
    obtain ⟨d, h4⟩ := ih2 ⟨g, fun b => .mul (p u) b⟩ fs false
    refine ⟨fun b => .mul (p u) b, b, d, by simp only [h1], fun rest => ?_⟩
    rw [List.append_assoc, h2, ← h4]
    rfl
  | @div s t a b _ _ ih1 ih2 =>
    intro g fs st
    obtain ⟨p, u, c, h1, h2⟩ := ih1 g fs st
    obtain ⟨d, h4⟩ := ih2 ⟨g, fun b => .div (p u) b⟩ fs false
    refine ⟨fun b => .div (p u) b, b, d, by simp only [h1], fun rest => ?_⟩
    rw [List.append_assoc, h2, ← h4]
    rfl
  | atom _ ih =>
    intro f fs st
    exact ⟨true, ih f fs st⟩
  | pow k _ ih =>
    intro f fs st
    refine ⟨false, fun rest => ?_⟩
    rw [List.append_assoc, ih]
    rfl
  | powNeg k _ ih =>
    intro f fs st
    refine ⟨false, fun rest => ?_⟩
    rw [List.append_assoc, ih]
    rfl
  | num k => intro f fs st rest; rfl
  | var i => intro f fs st rest; rfl
  | paren _ ih =>
    intro f fs st rest
    obtain ⟨g, a, b, h1, h2⟩ := ih (f :: fs)
    have := h2 ([.rpar] ++ rest)
    rw [List.cons_append, List.append_assoc]
    show run (fresh :: f :: fs, .operand true) _ = _
    rw [this, ← h1]
    rfl

/-- **No ambiguity.** A text is at most one expression. -/
theorem Reads.unique {s : List Char} {a b : Ex} (ha : Reads s a) (hb : Reads s b) : a = b := by
  obtain ⟨ts, h1, h2⟩ := ha
  obtain ⟨ts', h3, h4⟩ := hb
  rw [h1] at h3
  cases h3
  obtain ⟨f, u, c, e1, r1⟩ := ran h2 []
  obtain ⟨g, v, d, e2, r2⟩ := ran h4 []
  have := (r1 []).symm.trans (r2 [])
  simp only [run, Option.some.injEq, Prod.mk.injEq, List.cons.injEq, Stage.got.injEq] at this
  obtain ⟨⟨rfl, -⟩, rfl, -⟩ := this
  rw [← e1, ← e2]

/-- A text has at most one value at a point. -/
theorem HasValue.unique {K : Type*} [Field K] {x : ℕ → K} {s : List Char} {v w : K} (h1 : HasValue x s v) (h2 : HasValue x s w) : v = w := by
  obtain ⟨a, ha, e1⟩ := h1
  obtain ⟨b, hb, e2⟩ := h2
  rw [Reads.unique ha hb, e2] at e1
  exact (Option.some.inj e1).symm

/-! ## Examples -/

/-- `-2*x[0]^2/x[10]+1` -/
example : Reads "-2*x[0]^2/x[10] + 1".toList (.add (.neg (.div (.mul (.num 2) (.pow (.var 0) 2)) (.var 10))) (.num 1)) := by
  refine ⟨[.minus, .num 2, .times, .var 0, .pow, .num 2, .div, .var 10, .plus, .num 1], by decide +kernel, ?_⟩
  exact .add (.neg (.div (.mul (.factor (.atom (.num 2))) (.pow 2 (.var 0))) (.atom (.var 10)))) (.factor (.atom (.num 1)))

/-- An empty denominator cannot be read. -/
example (a : Ex) : ¬ Reads "1/()".toList a := by
  rintro ⟨ts, h1, h2⟩
  have e : lex .idle "1/()".toList = some [.num 1, .div, .lpar, .rpar] := by decide +kernel
  rw [e] at h1
  cases h1
  obtain ⟨f, u, c, -, r1⟩ := ran h2 []
  have := r1 []
  simp [run, step] at this

end Verif.GenFile
