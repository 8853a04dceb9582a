import Verif.GenFile.Model
import Verif.GenFile.Reader
import Mathlib.Algebra.BigOperators.Fin
import Mathlib.Tactic.Ring
import Mathlib.Tactic.FieldSimp

/-!
# Reading the generating function files (C82)
-/

namespace Verif.GenFile

open Verif.Barvinok (Vec)
open Verif.PolySubst (OffCone)
open Latte.Decimal

/-! ## Tokens of composed texts -/

/-- Nothing, or something that ends a number. -/
def Stops (rest : List Char) : Prop := ∀ c, rest.head? = some c → isDigit c = false ∧ (isSpace c = true ∨ ∃ t, symbol c = some t ∧ isSpace c = false ∧ c ≠ 'x')

/-- The tokens of `s`, whatever follows. -/
def Lexes (s : List Char) (ts : List Tok) : Prop := ∀ rest, Stops rest → lex .idle (s ++ rest) = (lex .idle rest).map (ts ++ ·)

theorem stops_nil : Stops [] := by intro c hc; cases hc

theorem stops_cons {c : Char} {s : List Char} (h : isDigit c = false ∧ (isSpace c = true ∨ ∃ t, symbol c = some t ∧ isSpace c = false ∧ c ≠ 'x')) :
    Stops (c :: s) := by
  intro d hd
  cases hd
  exact h

/-- A character that is a token by itself. -/
def IsSym (c : Char) (t : Tok) : Prop := isDigit c = false ∧ symbol c = some t ∧ isSpace c = false ∧ c ≠ 'x'

theorem IsSym.stops {c : Char} {t : Tok} (h : IsSym c t) (s : List Char) : Stops (c :: s) := stops_cons ⟨h.1, Or.inr ⟨t, h.2⟩⟩

theorem lex_sym {c : Char} {t : Tok} (h : IsSym c t) (s : List Char) : lex .idle (c :: s) = (lex .idle s).map (t :: ·) := by
  rw [lex]
  simp [h.1, h.2.1, h.2.2.1, h.2.2.2]

theorem lex_space {c : Char} (h : isSpace c = true) (s : List Char) : lex .idle (c :: s) = lex .idle s := by
  rw [lex]
  have hd : isDigit c = false := by
    by_contra hc
    have := isDigit_not_space (by simpa using hc : isDigit c = true)
    rw [h] at this
    cases this
  simp [h, hd]

theorem lex_num_stop (k : ℕ) {rest : List Char} (h : Stops rest) : lex (.num k) rest = (lex .idle rest).map (.num k :: ·) := by
  cases rest with
  | nil => rfl
  | cons c cs =>
    obtain ⟨h1, h2⟩ := h c rfl
    rcases h2 with h2 | ⟨t, h2, h3, h4⟩
    · rw [lex_space h2, lex]
      simp [h1, h2]
    · rw [lex_sym ⟨h1, h2, h3, h4⟩, lex]
      simp [h1, h2, h3, Function.comp_def]

theorem lex_digits (ds : List Char) (h : ∀ c ∈ ds, isDigit c = true) (k : ℕ) (rest : List Char) :
    lex (.num k) (ds ++ rest) = lex (.num (ds.foldl (fun a c => 10 * a + digitVal c) k)) rest := by
  induction ds generalizing k with
  | nil => rfl
  | cons c cs ih =>
    rw [List.cons_append, lex, if_pos (h c List.mem_cons_self), ih fun d hd => h d (List.mem_cons_of_mem _ hd)]
    rfl

theorem lex_index (ds : List Char) (h : ∀ c ∈ ds, isDigit c = true) (k : ℕ) (rest : List Char) :
    lex (.index k) (ds ++ rest) = lex (.index (ds.foldl (fun a c => 10 * a + digitVal c) k)) rest := by
  induction ds generalizing k with
  | nil => rfl
  | cons c cs ih =>
    rw [List.cons_append, lex, if_pos (h c List.mem_cons_self), ih fun d hd => h d (List.mem_cons_of_mem _ hd)]
    rfl

theorem lexes_num (k : ℕ) : Lexes (printNat k) [.num k] := by
  intro rest hr
  have hd := printNat_digits k
  have hv := natOfDigits_printNat k
  unfold natOfDigits at hv
  rcases hp : printNat k with _ | ⟨c, cs⟩
  · exact absurd hp (printNat_ne_nil k)
  · rw [hp] at hd hv
    rw [List.cons_append, lex, if_pos (hd c List.mem_cons_self), lex_digits cs (fun d h => hd d (List.mem_cons_of_mem _ h))]
    rw [List.foldl_cons, Nat.mul_zero, Nat.zero_add] at hv
    rw [hv, lex_num_stop _ hr]
    rfl

theorem lexes_var (i : ℕ) : Lexes (varText i) [.var i] := by
  intro rest hr
  have hd := printNat_digits i
  have hv := natOfDigits_printNat i
  unfold natOfDigits at hv
  unfold varText
  rcases hp : printNat i with _ | ⟨c, cs⟩
  · exact absurd hp (printNat_ne_nil i)
  · rw [hp] at hd hv
    rw [List.foldl_cons, Nat.mul_zero, Nat.zero_add] at hv
    show lex .idle ('x' :: '[' :: c :: (cs ++ [']'] ++ rest)) = _
    rw [lex, if_neg (by decide), if_neg (by decide), if_pos rfl, lex, if_pos rfl, lex, if_pos (hd c List.mem_cons_self), List.append_assoc,
      lex_index cs (fun d h => hd d (List.mem_cons_of_mem _ h)), hv, List.singleton_append, lex, if_neg (by decide), if_pos rfl]
    rfl

theorem Lexes.sym {c : Char} {t : Tok} (h : IsSym c t) {s : List Char} {ts : List Tok} (hs : Lexes s ts) : Lexes (c :: s) (t :: ts) := by
  intro rest hr
  rw [List.cons_append, lex_sym h, hs rest hr, Option.map_map]
  rfl

theorem lexes_nil : Lexes [] [] := by intro rest _; simp

/-- Joining two texts, the second of which begins with a symbol. -/
theorem Lexes.append {s : List Char} {ts : List Tok} (hs : Lexes s ts) {c : Char} {t : Tok} (h : IsSym c t) {s' : List Char} {ts' : List Tok}
    (hs' : Lexes s' ts') : Lexes (s ++ c :: s') (ts ++ t :: ts') := by
  intro rest hr
  rw [List.append_assoc, hs (c :: s' ++ rest) (h.stops _), hs'.sym h rest hr, Option.map_map]
  congr 1
  funext l
  simp

theorem Lexes.space {s : List Char} {ts : List Tok} (hs : Lexes s ts) {c : Char} (h : isSpace c = true) : Lexes (c :: s) ts := by
  intro rest hr
  rw [List.cons_append, lex_space h, hs rest hr]

theorem stops_space {c : Char} (h : isSpace c = true) (s : List Char) : Stops (c :: s) := by
  refine stops_cons ⟨?_, Or.inl h⟩
  by_contra hc
  have := isDigit_not_space (by simpa using hc : isDigit c = true)
  rw [h] at this
  cases this

theorem Lexes.append_space {s : List Char} {ts : List Tok} (hs : Lexes s ts) {c : Char} (h : isSpace c = true) {s' : List Char} {ts' : List Tok}
    (hs' : Lexes s' ts') : Lexes (s ++ c :: s') (ts ++ ts') := by
  intro rest hr
  rw [List.append_assoc, hs (c :: s' ++ rest) (stops_space h _), hs'.space h rest hr, Option.map_map]
  congr 1
  funext l
  simp

/-! ## Texts of each category with their values -/

variable {K : Type*} [Field K] (x : ℕ → K)

/-- The text `s` is of category `c` and has value `v`. -/
def W (c : Cat) (s : List Char) (v : K) : Prop := ∃ ts a, Lexes s ts ∧ Is c ts a ∧ value x a = some v

variable {x}

theorem W.hasValue {s : List Char} {v : K} (h : W x .expr s v) : HasValue x s v := by
  obtain ⟨ts, a, h1, h2, h3⟩ := h
  refine ⟨a, ⟨ts, ?_, h2⟩, h3⟩
  have := h1 [] stops_nil
  rw [List.append_nil] at this
  rw [this]
  simp [lex]

theorem W.atom {s : List Char} {v : K} (h : W x .atom s v) : W x .factor s v := by
  obtain ⟨ts, a, h1, h2, h3⟩ := h; exact ⟨ts, a, h1, .atom h2, h3⟩
theorem W.factor {s : List Char} {v : K} (h : W x .factor s v) : W x .term s v := by
  obtain ⟨ts, a, h1, h2, h3⟩ := h; exact ⟨ts, a, h1, .factor h2, h3⟩
theorem W.term {s : List Char} {v : K} (h : W x .term s v) : W x .expr s v := by
  obtain ⟨ts, a, h1, h2, h3⟩ := h; exact ⟨ts, a, h1, .term h2, h3⟩

theorem w_num (k : ℕ) : W x .atom (printNat k) (k : K) := ⟨_, _, lexes_num k, .num k, rfl⟩
theorem w_one : W x .atom ['1'] (1 : K) := by
  have := w_num (x := x) 1
  rw [Nat.cast_one] at this
  exact this
theorem w_var (i : ℕ) : W x .atom (varText i) (x i) := ⟨_, _, lexes_var i, .var i, rfl⟩

theorem sym_plus : IsSym '+' .plus := ⟨by decide, by decide, by decide, by decide⟩
theorem sym_minus : IsSym '-' .minus := ⟨by decide, by decide, by decide, by decide⟩
theorem sym_times : IsSym '*' .times := ⟨by decide, by decide, by decide, by decide⟩
theorem sym_div : IsSym '/' .div := ⟨by decide, by decide, by decide, by decide⟩
theorem sym_pow : IsSym '^' .pow := ⟨by decide, by decide, by decide, by decide⟩
theorem sym_lpar : IsSym '(' .lpar := ⟨by decide, by decide, by decide, by decide⟩
theorem sym_rpar : IsSym ')' .rpar := ⟨by decide, by decide, by decide, by decide⟩

theorem W.paren {s : List Char} {v : K} (h : W x .expr s v) : W x .atom ('(' :: (s ++ [')'])) v := by
  obtain ⟨ts, a, h1, h2, h3⟩ := h
  exact ⟨_, a, (h1.append sym_rpar lexes_nil).sym sym_lpar, .paren h2, h3⟩

theorem W.neg {s : List Char} {v : K} (h : W x .term s v) : W x .expr ('-' :: s) (-v) := by
  obtain ⟨ts, a, h1, h2, h3⟩ := h
  exact ⟨_, _, h1.sym sym_minus, .neg h2, by simp [value, h3]⟩

theorem W.add {s t : List Char} {u v : K} (h : W x .expr s u) (h' : W x .term t v) : W x .expr (s ++ '+' :: t) (u + v) := by
  obtain ⟨ts, a, h1, h2, h3⟩ := h
  obtain ⟨ts', a', h1', h2', h3'⟩ := h'
  exact ⟨_, _, h1.append sym_plus h1', .add h2 h2', by simp [value, h3, h3']⟩

theorem W.add_spaced {s t : List Char} {u v : K} (h : W x .expr s u) (h' : W x .term t v) : W x .expr (s ++ [' ', '+', ' '] ++ t) (u + v) := by
  obtain ⟨ts, a, h1, h2, h3⟩ := h
  obtain ⟨ts', a', h1', h2', h3'⟩ := h'
  refine ⟨ts ++ (.plus :: ts'), .add a a', ?_, .add h2 h2', by simp [value, h3, h3']⟩
  rw [List.append_assoc]
  exact h1.append_space (by decide) ((h1'.space (by decide)).sym sym_plus)

theorem W.sub {s t : List Char} {u v : K} (h : W x .expr s u) (h' : W x .term t v) : W x .expr (s ++ '-' :: t) (u - v) := by
  obtain ⟨ts, a, h1, h2, h3⟩ := h
  obtain ⟨ts', a', h1', h2', h3'⟩ := h'
  exact ⟨_, _, h1.append sym_minus h1', .sub h2 h2', by simp [value, h3, h3']⟩

theorem W.mul {s t : List Char} {u v : K} (h : W x .term s u) (h' : W x .factor t v) : W x .term (s ++ '*' :: t) (u * v) := by
  obtain ⟨ts, a, h1, h2, h3⟩ := h
  obtain ⟨ts', a', h1', h2', h3'⟩ := h'
  exact ⟨_, _, h1.append sym_times h1', .mul h2 h2', by simp [value, h3, h3']⟩

theorem W.div {s t : List Char} {u v : K} (h : W x .term s u) (h' : W x .factor t v) (hv : v ≠ 0) : W x .term (s ++ '/' :: t) (u / v) := by
  obtain ⟨ts, a, h1, h2, h3⟩ := h
  obtain ⟨ts', a', h1', h2', h3'⟩ := h'
  exact ⟨_, _, h1.append sym_div h1', .div h2 h2', by simp [value, h3, h3', hv]⟩

theorem W.pow {s : List Char} {u : K} (h : W x .atom s u) (k : ℕ) : W x .factor (s ++ '^' :: printNat k) (u ^ (k : ℤ)) := by
  obtain ⟨ts, a, h1, h2, h3⟩ := h
  refine ⟨_, _, h1.append sym_pow (lexes_num k), .pow k h2, ?_⟩
  simp [value, h3]

theorem W.powNeg {s : List Char} {u : K} (h : W x .atom s u) (hu : u ≠ 0) (k : ℕ) :
    W x .factor (s ++ '^' :: '(' :: '-' :: (printNat k ++ [')'])) (u ^ (-k : ℤ)) := by
  obtain ⟨ts, a, h1, h2, h3⟩ := h
  refine ⟨_, _, h1.append sym_pow ((((lexes_num k).append sym_rpar lexes_nil).sym sym_minus).sym sym_lpar), .powNeg k h2, ?_⟩
  simp [value, h3, hu]

theorem W.newline {s : List Char} {v : K} {c : Cat} (h : W x c s v) : W x c (s ++ ['\n']) v := by
  obtain ⟨ts, a, h1, h2, h3⟩ := h
  refine ⟨ts, a, ?_, h2, h3⟩
  have := h1.append_space (c := '\n') (by decide) lexes_nil
  rwa [List.append_nil] at this

/-! ## Monomials -/

/-- The text of one power. -/
def powText (i : ℕ) (z : ℤ) : List Char :=
  if z < 0 then varText i ++ ['^', '('] ++ printInt z ++ [')'] else if z = 1 then varText i else varText i ++ ['^'] ++ printInt z

theorem termLoop_cons (i : ℕ) (z : ℤ) (l : List (ℕ × ℤ)) (first : Bool) (hz : z ≠ 0) :
    termLoop ((i, z) :: l) first = (if first = true then ['*'] else []) ++ (powText i z ++ termLoop l true) := by
  rw [termLoop, if_pos hz]
  congr 1
  unfold powText
  rcases lt_trichotomy z 0 with h | h | h
  · simp [h, show ¬ z = 1 by omega, show ¬ z > 1 by omega]
  · exact absurd h hz
  · by_cases h1 : z = 1
    · simp [h1]
    · simp [show ¬ z < 0 by omega, h1, show z > 1 by omega]

theorem w_power (i : ℕ) (z : ℤ) (hx : x i ≠ 0) : W x .factor (powText i z) (x i ^ z) := by
  unfold powText
  split_ifs with h h1
  · have := (w_var (x := x) i).powNeg hx z.natAbs
    rw [show (-(z.natAbs : ℤ)) = z by omega] at this
    have e : varText i ++ ['^', '('] ++ printInt z ++ [')'] = varText i ++ '^' :: '(' :: '-' :: (printNat z.natAbs ++ [')']) := by
      simp [printInt, h]
    rw [e]
    exact this
  · rw [h1, zpow_one]
    exact (w_var i).atom
  · have := (w_var (x := x) i).pow z.natAbs
    rw [show ((z.natAbs : ℕ) : ℤ) = z by omega] at this
    have e : varText i ++ ['^'] ++ printInt z = varText i ++ '^' :: printNat z.natAbs := by
      simp [printInt, h]
    rw [e]
    exact this

/-- The value of a monomial given by its entries. -/
def listMono (x : ℕ → K) (l : List (ℕ × ℤ)) : K := (l.map fun e => x e.1 ^ e.2).prod

theorem w_loop_more (l : List (ℕ × ℤ)) (hl : ∀ e ∈ l, x e.1 ≠ 0) {s : List Char} {u : K} (h : W x .term s u) :
    W x .term (s ++ termLoop l true) (u * listMono x l) := by
  induction l generalizing s u with
  | nil => simpa [termLoop, listMono] using h
  | cons e l ih =>
    obtain ⟨i, z⟩ := e
    have ih' := fun {s u} => ih (fun e he => hl e (List.mem_cons_of_mem _ he)) (s := s) (u := u)
    by_cases hz : z = 0
    · have e1 : termLoop ((i, z) :: l) true = termLoop l true := by rw [termLoop, if_neg (by simpa using hz)]
      rw [e1]
      have := ih' h
      simpa [listMono, hz] using this
    · rw [termLoop_cons _ _ _ _ hz]
      have := ih' (h.mul (w_power i z (hl _ List.mem_cons_self)))
      simpa [listMono, mul_assoc] using this

theorem w_loop_first (l : List (ℕ × ℤ)) (hl : ∀ e ∈ l, x e.1 ≠ 0) : W x .term (termLoop l false) (listMono x l) := by
  induction l with
  | nil =>
    have := (w_one (x := x)).atom.factor
    simpa [termLoop, listMono] using this
  | cons e l ih =>
    obtain ⟨i, z⟩ := e
    by_cases hz : z = 0
    · have e1 : termLoop ((i, z) :: l) false = termLoop l false := by rw [termLoop, if_neg (by simpa using hz)]
      rw [e1]
      have := ih fun e he => hl e (List.mem_cons_of_mem _ he)
      simpa [listMono, hz] using this
    · rw [termLoop_cons _ _ _ _ hz]
      have := w_loop_more l (fun e he => hl e (List.mem_cons_of_mem _ he)) (w_power i z (hl _ List.mem_cons_self)).factor
      simpa [listMono] using this

theorem w_loop_after (l : List (ℕ × ℤ)) (hl : ∀ e ∈ l, x e.1 ≠ 0) {s : List Char} {u : K} (h : W x .term s u) :
    W x .term (s ++ '*' :: termLoop l false) (u * listMono x l) := by
  induction l with
  | nil =>
    have := h.mul (w_one (x := x)).atom
    simpa [termLoop, listMono] using this
  | cons e l ih =>
    obtain ⟨i, z⟩ := e
    by_cases hz : z = 0
    · have e1 : termLoop ((i, z) :: l) false = termLoop l false := by rw [termLoop, if_neg (by simpa using hz)]
      rw [e1]
      have := ih fun e he => hl e (List.mem_cons_of_mem _ he)
      simpa [listMono, hz] using this
    · rw [termLoop_cons _ _ _ _ hz]
      have := w_loop_more l (fun e he => hl e (List.mem_cons_of_mem _ he)) (h.mul (w_power i z (hl _ List.mem_cons_self)))
      simpa [listMono, mul_assoc] using this

/-! ## Cones -/

variable {n : ℕ}

/-- **Specification.** The monomial `x^v`. -/
def monomial (x : ℕ → K) (v : Vec n) : K := ∏ i, x i.val ^ v i

theorem listMono_entries (v : Vec n) : listMono x (entries v) = monomial x v := by
  unfold listMono entries monomial
  rw [List.map_map, Fin.prod_univ_def]
  rfl

theorem entries_ne (hx : ∀ i < n, x i ≠ 0) (v : Vec n) : ∀ e ∈ entries v, x e.1 ≠ 0 := by
  intro e he
  obtain ⟨i, -, rfl⟩ := List.mem_map.1 he
  exact hx i.val i.isLt

theorem w_term (hx : ∀ i < n, x i ≠ 0) (v : Vec n) : W x .term (writeTerm v) (monomial x v) := by
  rw [← listMono_entries]
  exact w_loop_first _ (entries_ne hx v)

theorem w_term_after (hx : ∀ i < n, x i ≠ 0) (v : Vec n) {s : List Char} {u : K} (h : W x .term s u) :
    W x .term (s ++ '*' :: writeTerm v) (u * monomial x v) := by
  rw [← listMono_entries]
  exact w_loop_after _ (entries_ne hx v) h

theorem w_points_more (hx : ∀ i < n, x i ≠ 0) (l : List (Vec n)) {s : List Char} {u : K} (h : W x .expr s u) :
    W x .expr (s ++ ((if l ≠ [] then ['+'] else []) ++ writePoints l)) (u + (l.map (monomial x)).sum) := by
  induction l generalizing s u with
  | nil => simpa [writePoints] using h
  | cons v l ih =>
    have := ih (h.add (w_term hx v))
    simpa [writePoints, add_assoc] using this

theorem w_points (hx : ∀ i < n, x i ≠ 0) (l : List (Vec n)) (hl : l ≠ []) : W x .expr (writePoints l) ((l.map (monomial x)).sum) := by
  cases l with
  | nil => exact absurd rfl hl
  | cons v l =>
    have := w_points_more hx l (w_term hx v).term
    simpa [writePoints] using this

theorem w_ray (hx : ∀ i < n, x i ≠ 0) (v : Vec n) : W x .factor (['(', '1', '-'] ++ (writeTerm v ++ [')'])) (1 - monomial x v) := by
  have h := ((w_one (x := x)).atom.factor.term.sub (w_term hx v)).paren.atom
  simpa using h

theorem w_rays_more (hx : ∀ i < n, x i ≠ 0) (l : List (Vec n)) {s : List Char} {u : K} (h : W x .term s u) :
    W x .term (s ++ ((if l ≠ [] then ['*'] else []) ++ writeRays l)) (u * (l.map fun r => 1 - monomial x r).prod) := by
  induction l generalizing s u with
  | nil => simpa [writeRays] using h
  | cons v l ih =>
    have := ih (h.mul (w_ray hx v))
    simpa [writeRays, mul_assoc] using this

theorem w_rays (hx : ∀ i < n, x i ≠ 0) (l : List (Vec n)) (hl : l ≠ []) : W x .term (writeRays l) ((l.map fun r => 1 - monomial x r).prod) := by
  cases l with
  | nil => exact absurd rfl hl
  | cons v l =>
    have := w_rays_more hx l (w_ray hx v).factor
    simpa [writeRays] using this

theorem w_coefficient (c : ℤ) : W x .atom (['('] ++ printInt c ++ [')']) (c : K) := by
  by_cases h : c < 0
  · have := (w_num (x := x) c.natAbs).atom.factor.neg.paren
    have e : (-((c.natAbs : ℕ) : K)) = (c : K) := by
      rw [← Int.cast_natCast, ← Int.cast_neg]
      congr 1
      omega
    rw [e] at this
    simpa [printInt, h] using this
  · have := (w_num (x := x) c.natAbs).atom.factor.term.paren
    have e : ((c.natAbs : ℕ) : K) = (c : K) := by
      rw [← Int.cast_natCast]
      congr 1
      omega
    rw [e] at this
    simpa [printInt, h] using this

/-- **Specification.** The rational function of a cone: sign, numerator and denominator. -/
noncomputable def coneValue (x : ℕ → K) (C : OffCone n) : K := C.coefficient * (C.points.map (monomial x)).sum / (C.rays.map fun r => 1 - monomial x r).prod

/-- **Specification.** The cone has a sign, lattice points and rays, and no denominator vanishes at `x`. -/
structure Writable (x : ℕ → K) (C : OffCone n) : Prop where
  sign : C.coefficient ≠ 0
  points : C.points ≠ []
  rays : C.rays ≠ []
  generic : ∀ r ∈ C.rays, monomial x r ≠ 1

theorem Writable.den {C : OffCone n} (h : Writable x C) : (C.rays.map fun r => 1 - monomial x r).prod ≠ 0 := by
  rw [ne_eq, List.prod_eq_zero_iff]
  intro h0
  obtain ⟨r, hr, e⟩ := List.mem_map.1 h0
  exact h.generic r hr (sub_eq_zero.1 e).symm

/-- **C82, one cone.** The text of a cone is a term whose value is the rational function of the cone. -/
theorem w_cone (hx : ∀ i < n, x i ≠ 0) (C : OffCone n) (h : Writable x C) : W x .term (writeCone C) (coneValue x C) := by
  have hden := ((w_rays hx C.rays h.rays).term.paren).atom
  -- the numerator
  have hnum : W x .term ((if C.coefficient ≠ 1 then ['('] ++ printInt C.coefficient ++ [')', '*'] else []) ++
      ((if C.points.length > 1 then ['('] else []) ++ (writePoints C.points ++ (if C.points.length > 1 then [')'] else []))))
      (C.coefficient * (C.points.map (monomial x)).sum) := by
    by_cases h1 : C.points.length > 1
    · have hp := (w_points hx C.points h.points).paren.atom
      by_cases hc : C.coefficient = 1
      · simpa [hc, h1] using hp.factor
      · have := (w_coefficient (x := x) C.coefficient).atom.factor.mul hp
        simpa [hc, h1] using this
    · obtain ⟨v, hv⟩ : ∃ v, C.points = [v] := by
        apply List.length_eq_one_iff.1
        have := List.length_pos_of_ne_nil h.points
        omega
      by_cases hc : C.coefficient = 1
      · simpa [hc, hv, writePoints] using w_term hx v
      · have := w_term_after hx v (w_coefficient (x := x) C.coefficient).atom.factor
        simpa [hc, hv, writePoints] using this
  have := hnum.div hden h.den
  unfold writeCone coneValue
  rw [if_neg h.sign]
  simpa [List.append_assoc] using this

/-- **C82, the terms of `.maple`.** -/
theorem w_cones_more (hx : ∀ i < n, x i ≠ 0) (C : OffCone n) (l : List (OffCone n)) (hC : Writable x C) (h : ∀ C ∈ l, Writable x C)
    {s : List Char} {u : K} (hs : W x .expr s u) :
    W x .expr (s ++ '+' :: writeCones C l) (u + ((C :: l).map (coneValue x)).sum) := by
  induction l generalizing s u C with
  | nil => simpa [writeCones] using hs.add (w_cone hx C hC)
  | cons D l ih =>
    have := ih D (h D List.mem_cons_self) (fun E hE => h E (List.mem_cons_of_mem _ hE)) (hs.add (w_cone hx C hC))
    simpa [writeCones, add_assoc] using this

theorem w_cones (hx : ∀ i < n, x i ≠ 0) (C : OffCone n) (l : List (OffCone n)) (hC : Writable x C) (h : ∀ C ∈ l, Writable x C) :
    W x .expr (writeCones C l) (((C :: l).map (coneValue x)).sum) := by
  cases l with
  | nil => simpa [writeCones] using (w_cone hx C hC).term
  | cons D l =>
    have := w_cones_more hx D l (h D List.mem_cons_self) (fun E hE => h E (List.mem_cons_of_mem _ hE)) (w_cone hx C hC).term
    simpa [writeCones] using this

theorem w_rat_more (hx : ∀ i < n, x i ≠ 0) (l : List (OffCone n)) (h : ∀ C ∈ l, Writable x C) {s : List Char} {u : K} (hs : W x .expr s u) :
    W x .expr (s ++ ratFile false l) (u + (l.map (coneValue x)).sum) := by
  induction l generalizing s u with
  | nil => simpa [ratFile] using hs
  | cons C l ih =>
    have hC := h C List.mem_cons_self
    have := ih (fun D hD => h D (List.mem_cons_of_mem _ hD)) (hs.add_spaced (w_cone hx C hC).newline)
    rw [ratFile, if_pos hC.points]
    simpa [add_assoc] using this

/-- **C82, the text of the file `.rat`.** Read as an arithmetic expression, it has at every point where no denominator vanishes the value of the sum of the rational
functions of the cones. -/
theorem c82_rat_text (hx : ∀ i < n, x i ≠ 0) (P : List (OffCone n)) (hP : P ≠ []) (h : ∀ C ∈ P, Writable x C) :
    HasValue x (ratFile true P) ((P.map (coneValue x)).sum) := by
  cases P with
  | nil => exact absurd rfl hP
  | cons C l =>
    have hC := h C List.mem_cons_self
    have := w_rat_more hx l (fun D hD => h D (List.mem_cons_of_mem _ hD)) (w_cone hx C hC).term.newline
    apply W.hasValue
    rw [ratFile, if_pos hC.points]
    simpa using this

/-- Cones without points leave no trace in the file `.rat`, also at its beginning. -/
theorem c82_rat_skips (first : Bool) (P : List (OffCone n)) : ratFile first P = ratFile first (P.filter fun C => decide (C.points ≠ [])) := by
  induction P generalizing first with
  | nil => rfl
  | cons C l ih =>
    by_cases h : C.points = []
    · rw [List.filter_cons_of_neg (by simpa using h), ratFile, if_neg (by simpa using h)]
      exact ih first
    · rw [List.filter_cons_of_pos (by simpa using h), ratFile, ratFile, if_pos h, if_pos h, ih false]

/-- **C82, the text of the file `.maple`.** It assigns to `gF` an expression with that value. -/
theorem c82_maple_text (hx : ∀ i < n, x i ≠ 0) (P : List (OffCone n)) (hP : P ≠ []) (h : ∀ C ∈ P, Writable x C) :
    ∃ body, mapleFile P = .ok ("gF:=".toList ++ body ++ ";\n".toList) ∧ HasValue x body ((P.map (coneValue x)).sum) := by
  cases P with
  | nil => exact absurd rfl hP
  | cons C l =>
    exact ⟨writeCones C l, rfl, (w_cones hx C l (h C List.mem_cons_self) fun D hD => h D (List.mem_cons_of_mem _ hD)).hasValue⟩

end Verif.GenFile
