import Verif.Trie.Model
import Mathlib.Algebra.Ring.Defs

/-!
# Multiplication and addition of stored polynomials (model)

Models `code/latte/integration/multiply.h` (the three `multiply` functions) and the class
`GeneralMonomialSum` of `code/latte/integration/GeneralMonomialSum.h`. A loop
`while ((t = it->nextTerm()) != 0)` is a fold over the list `drain` delivers; `begin()` restarts it.
-/

namespace Verif.Trie

variable {T : Type} [CommSemiring T] [DecidableEq T]

/-- The loop over the variables, multiply.h:47–51: the sum of the exponents; the inner option is `none`
when a component is outside its window (`break`). An array shorter than the others is `none`. -/
def windowAdd : List ℤ → List ℤ → List ℤ → List ℤ → Option (Option (List ℤ))
  | [], [], [], [] => some (some [])
  | lo :: los, hi :: his, a :: as, b :: bs =>
    if a + b < lo ∨ a + b > hi then some none
    else (windowAdd los his as bs).map (Option.map ((a + b) :: ·))
  | _, _, _, _ => none

/-- The same loop without the window, multiply.h:84–87. -/
def plainAdd : List ℤ → List ℤ → Option (Option (List ℤ))
  | [], [] => some (some [])
  | a :: as, b :: bs => (plainAdd as bs).map (Option.map ((a + b) :: ·))
  | _, _ => none

/-- The inner loop of `multiply`, multiply.h:45–57 and 82–89. -/
def mulInner (n : ℕ) (add : List ℤ → List ℤ → Option (Option (List ℤ))) (a : Term T) :
    List (Term T) → Option (Root T) → Option (Option (Root T))
  | [], r => some r
  | b :: bs, r =>
    match add a.exps b.exps with
    | none => none
    | some none => mulInner n add a bs r
    | some (some e) =>
      match insertTrie n (a.coef * b.coef) (-1) e r with
      | none => none
      | some r => mulInner n add a bs (some r)

/-- The outer loop, multiply.h:43–59: the second factor is iterated over anew for each term of the
first. -/
def mulOuter (n : ℕ) (add : List ℤ → List ℤ → Option (Option (List ℤ)))
    (second : Option (List (Term T))) : List (Term T) → Option (Root T) → Option (Option (Root T))
  | [], r => some r
  | a :: as, r =>
    match second with
    | none => none
    | some bs =>
      match mulInner n add a bs r with
      | none => none
      | some r => mulOuter n add second as r

/-- `multiply` for stored polynomials (multiply.h:33–61 with window, 68–93 without). -/
def multiply (fuel rounds n : ℕ) (add : List ℤ → List ℤ → Option (Option (List ℤ)))
    (p q : Option (Root T)) : Option (Option (Root T)) :=
  match drain fuel rounds (begin' p n) with
  | none => none
  | some as => mulOuter n add (drain fuel rounds (begin' q n)) as none

/-- The inner loop of the product for block storage, multiply.h:110–124: the terms passed to
`_insertMonomial`. -/
def blockInner (add : List ℤ → List ℤ → Option (Option (List ℤ))) (a : Term T) :
    List (Term T) → Option (List (T × List ℤ))
  | [] => some []
  | b :: bs =>
    match add a.exps b.exps with
    | none => none
    | some none => blockInner add a bs
    | some (some e) => (blockInner add a bs).map ((a.coef * b.coef, e) :: ·)

/-- The product for block storage, `multiply(it, it2, _monomialSum&, …)`, multiply.h:96–129: the list of
terms passed to `_insertMonomial`. `secondTerm` is fetched before the loops and at the end of the inner
loop only, so after the first pass it stays NULL although `it2` is restarted. `cur` is what `it2` still
delivers starting with `secondTerm`. -/
def blockOuter (add : List ℤ → List ℤ → Option (Option (List ℤ))) :
    List (Term T) → (cur : List (Term T)) → Option (List (T × List ℤ))
  | [], _ => some []
  | a :: as, cur =>
    match blockInner add a cur with
    | none => none
    | some l => (blockOuter add as []).map (l ++ ·)

/-! ## `GeneralMonomialSum` -/

/-- The pointer `myMonomials`: NULL, to freed memory, or to a trie. -/
inductive Ptr (T : Type) where
  | null
  | freed
  | live (t : Option (Root T))

/-- `GeneralMonomialSum`, GeneralMonomialSum.h:25–48. -/
structure Gms (T : Type) where
  termCount : ℕ
  varCount : ℕ
  mono : Ptr T

/-- The constructor (with `varCount` then set by the caller), GeneralMonomialSum.h:32–34. -/
def Gms.new (T : Type) (n : ℕ) : Gms T := ⟨0, n, .null⟩

/-- `insertMonomial`, GeneralMonomialSum.h:186–203. -/
def Gms.insertMonomial (g : Gms T) (c : T) (e : List ℤ) : Option (Gms T) :=
  if c = 0 then some g
  else
    match (if g.termCount = 0 then Ptr.live none else g.mono) with
    | .live t => (insertTrie g.varCount c (-1) e t).map fun r =>
        { g with termCount := g.termCount + 1, mono := .live (some r) }
    | _ => none

/-- The terms `nextTerm` delivers for the pointer; `none` for a null or dangling one. -/
def Ptr.drain (fuel rounds n : ℕ) : Ptr T → Option (List (Term T))
  | .live t => Trie.drain fuel rounds (begin' t n)
  | _ => none

/-- The number of terms `multiply` inserts (it increments `termCount` for each). -/
def mulCount (add : List ℤ → List ℤ → Option (Option (List ℤ))) (as bs : List (Term T)) : ℕ :=
  ((as.flatMap fun a => bs.map fun b => add a.exps b.exps).filter fun r =>
    match r with
    | some (some _) => true
    | _ => false).length

/-- `multiply`, GeneralMonomialSum.h:72–127 (`assert(varCount == gms.varCount)` is `none`). -/
def Gms.multiply (fuel rounds : ℕ) (g h : Gms T) (mn mx : List ℤ) : Option (Gms T) :=
  if g.varCount ≠ h.varCount then none
  else if g.termCount = 0 then some g
  else if h.termCount = 0 then some ⟨0, g.varCount, .null⟩
  else
    match g.mono.drain fuel rounds g.varCount with
    | none => none
    | some as =>
      match mulOuter g.varCount (windowAdd mn mx) (h.mono.drain fuel rounds h.varCount) as none with
      | none => none
      | some r => some ⟨mulCount (windowAdd mn mx) as
          ((h.mono.drain fuel rounds h.varCount).getD []), g.varCount, .live r⟩

/-- The loop of `add`, GeneralMonomialSum.h:177–181. -/
def Gms.addLoop (n : ℕ) : List (Term T) → Option (Root T) → Option (Option (Root T))
  | [], r => some r
  | b :: bs, r =>
    match insertTrie n b.coef (-1) b.exps r with
    | none => none
    | some r => Gms.addLoop n bs (some r)

/-- The start of `add`, GeneralMonomialSum.h:162–166: a null pointer is replaced by a new trie. -/
def Gms.start (g : Gms T) : Gms T :=
  match g.mono with
  | .null => { g with termCount := 0, mono := .live none }
  | _ => g

/-- `add`, GeneralMonomialSum.h:156–184. -/
def Gms.add (fuel rounds : ℕ) (g h : Gms T) : Option (Gms T) :=
  if g.varCount ≠ h.varCount then none
  else if h.termCount = 0 then some g
  else
    match g.start.mono, h.mono.drain fuel rounds h.varCount with
    | .live t, some bs => (Gms.addLoop g.varCount bs t).map fun r =>
        { g.start with termCount := g.start.termCount + bs.length, mono := .live r }
    | _, _ => none

/-- `setToConstant`, GeneralMonomialSum.h:205–225: the trie is deleted, but the pointer keeps its value
unless `insertMonomial` then stores a new one. Deleting freed memory is `none`. -/
def Gms.setToConstant (g : Gms T) (c : T) : Option (Gms T) :=
  match g.mono with
  | .freed => none
  | p => Gms.insertMonomial
      { g with termCount := 0, mono := match p with
                                        | .null => .null
                                        | _ => .freed } c (List.replicate g.varCount 0)

/-- `destroyMonomials` and the destructor, GeneralMonomialSum.h:55–69. -/
def Gms.destroy (g : Gms T) : Option (Gms T) :=
  match g.mono with
  | .freed => none
  | _ => some ⟨0, 0, .null⟩

end Verif.Trie
