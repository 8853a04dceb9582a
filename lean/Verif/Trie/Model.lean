import Mathlib.Algebra.Order.Ring.Int
import Mathlib.Algebra.Group.Defs
import Mathlib.Data.List.Basic
import Mathlib.Tactic.Linarith

/-!
# Burst tries (model)

Models `code/latte/integration/burstTrie.hpp` (`BurstTerm::lessThan`, `BurstContainer::insertTerm`,
`BurstContainer::burst`, `BurstTrie::insertTerm`, `BurstTrie::checkRange`), the iterator
`BTrieIterator` of `code/latte/integration/iterators.hpp`, and `insertMonomial`/`insertLinForm` of
`code/latte/integration/PolyTrie.cpp`.

The exponent type `S` (`int` or `ZZ`) is `ℤ` (overflow of `int` is not modelled), the coefficient type
`T` is any commutative additive monoid with decidable equality. Linked lists are lists; a pointer into
a linked list is the rest of the list from there on; NULL is the empty list. Dereferencing NULL, a
failed assertion or an access out of bounds is `none`. Memory management is not modelled.
-/

namespace Verif.Trie

/-- `BurstTerm` (burstTrie.hpp:15–88): coefficient, remaining exponents, degree. -/
structure Term (T : Type) where
  coef : T
  exps : List ℤ
  degree : ℤ

/-- A `trieElem` (burstTrie.hpp:5–11): a container with its linked list of terms (`termCount` is its
length), or a trie with `range[0]`, `range[1]` and the linked list of its elements. -/
inductive Elem (T : Type) where
  | cont (terms : List (Term T))
  | trie (lo hi : ℤ) (elems : List (Elem T))

/-- A `BurstTrie` (burstTrie.hpp:211–354) that has been inserted into: `range` and the elements. The
fresh trie (`range == NULL`) is `none` where this type occurs as an option. -/
structure Root (T : Type) where
  lo : ℤ
  hi : ℤ
  elems : List (Elem T)

variable {T : Type} [AddCommMonoid T] [DecidableEq T]

/-- The comparison of exponents in `lessThan`, burstTrie.hpp:60–79: `some (less, equal)`, or `none` if
the assertion on the lengths fails. -/
def expsLess : List ℤ → List ℤ → Option (Bool × Bool)
  | [], [] => some (false, true)
  | a :: as, b :: bs => if a < b then some (true, false) else if a > b then some (false, false)
      else expsLess as bs
  | _, _ => none

/-- `BurstTerm::lessThan`, burstTrie.hpp:49–80; returns `(result, equal)`. -/
def lessThan (a b : Term T) : Option (Bool × Bool) :=
  if a.degree < b.degree then some (true, false)
  else if a.degree > b.degree then some (false, false)
  else expsLess a.exps b.exps

/-- The loop of `BurstContainer::insertTerm`, burstTrie.hpp:153–176, from `curTerm` on. -/
def insertAfter (new : Term T) : List (Term T) → Option (List (Term T))
  | [] => some [new]
  | cur :: rest =>
    match lessThan cur new with
    | none => none
    | some (true, _) => (insertAfter new rest).map (cur :: ·)
    | some (false, true) => some ({ cur with coef := cur.coef + new.coef } :: rest)
    | some (false, false) => some (new :: cur :: rest)

/-- `BurstContainer::insertTerm`, burstTrie.hpp:124–177. -/
def contInsert (new : Term T) : List (Term T) → Option (List (Term T))
  | [] => some [new]
  | first :: rest =>
    match lessThan new first with
    | none => none
    | some (true, _) => some (new :: first :: rest)
    | some (false, true) => some ({ first with coef := first.coef + new.coef } :: rest)
    | some (false, false) => insertAfter new (first :: rest)

/-- `BURST_MAX`, burstTrie.h:8. -/
def burstMax : ℕ := 2

/-- `k` fresh containers. -/
def fresh (T : Type) (k : ℕ) : List (Elem T) := List.replicate k (.cont [])

/-- `BurstTrie::checkRange`, burstTrie.hpp:306–348. For a new minimum a container is created for `v` and
for each value between; for a new maximum the end of the list is looked up (`range[1] - range[0]`
steps) and containers appended there, replacing whatever followed. -/
def checkRange (v : ℤ) (t : Root T) : Option (Root T) :=
  if v < t.lo then
    some ⟨v, t.hi, .cont [] :: fresh T (t.lo - (v + 1)).toNat ++ t.elems⟩
  else if v > t.hi then
    if (t.elems.drop (t.hi - t.lo).toNat).isEmpty then none
    else some ⟨t.lo, v, t.elems.take ((t.hi - t.lo).toNat + 1) ++ fresh T (v - t.hi).toNat⟩
  else some t

/-- The state of a trie before the search for the element: a fresh trie gets its first element
(burstTrie.hpp:261–268; the code reads `newExps[0]`, which is `newExps[start]` because a fresh trie is
only inserted into with `start = 0`), otherwise `checkRange`. -/
def prepare (e : ℤ) : Option (Root T) → Option (Root T)
  | none => some ⟨e, e, [.cont []]⟩
  | some t => checkRange e t

/-- `BurstTrie::insertTerm`, burstTrie.hpp:251–304. `n` is the number of exponents left
(`myLength - start`), `exps` these exponents. Bursting (`BurstContainer::burst`, 179–192) inserts the
terms of the container into a fresh trie; their length is `n - 1` as well. -/
def insertTrie : ℕ → T → ℤ → List ℤ → Option (Root T) → Option (Root T)
  | 0, _, _, _, _ => none
  | _ + 1, _, _, [], _ => none
  | n + 1, coef, degree, e :: rest, t =>
    match prepare e t with
    | none => none
    | some t =>
      match t.elems[(e - t.lo).toNat]? with
      | none => none
      | some (.trie lo hi es) =>
        (insertTrie n coef degree rest (some ⟨lo, hi, es⟩)).map fun r =>
          { t with elems := t.elems.set (e - t.lo).toNat (.trie r.lo r.hi r.elems) }
      | some (.cont ts) =>
        if ts.length = burstMax ∧ n + 1 > 1 then
          (((ts.foldl (fun (acc : Option (Option (Root T))) x =>
            acc.bind fun r => (insertTrie n x.coef x.degree x.exps r).map some) (some none)).bind
              fun r => insertTrie n coef degree rest r)).map fun r =>
            { t with elems := t.elems.set (e - t.lo).toNat (.trie r.lo r.hi r.elems) }
        else
          (contInsert ⟨coef, rest, degree⟩ ts).map fun ts =>
            { t with elems := t.elems.set (e - t.lo).toNat (.cont ts) }

/-! ## Iteration -/

/-- `BTrieIterator` (iterators.hpp:1–153): the trie, the dimension, the path from the root (deepest level
first; `curDepth` is its length minus one) with the current exponent and `triePath` pointer of each
level, and `storedTerm`. -/
structure It (T : Type) where
  root : Option (Root T)
  dim : ℕ
  path : List (ℤ × List (Elem T))
  stored : List (Term T)

/-- `setTrie`, `begin`, iterators.hpp:13–28 (`assert(myDim > 0)` is a hypothesis of the theorems). -/
def begin' (root : Option (Root T)) (dim : ℕ) : It T := ⟨root, dim, [], []⟩

/-- `firstContainer`, iterators.hpp:79–94. `fuel` is the number of unused cells of `triePath`. -/
def firstContainer : (fuel : ℕ) → Elem T → List (ℤ × List (Elem T)) →
    Option (List (Term T) × List (ℤ × List (Elem T)))
  | _, .cont ts, path => some (ts, path)
  | 0, .trie _ _ _, _ => none
  | k + 1, .trie lo _ es, path =>
    match es with
    | [] => none
    | e :: es => firstContainer k e ((lo, e :: es) :: path)

/-- The loop skipping empty containers, iterators.hpp:44–61. -/
def skip : ℤ → List (Elem T) → ℤ × List (Elem T)
  | x, [] => (x, [])
  | x, .cont [] :: rest => skip (x + 1) rest
  | x, e :: rest => (x, e :: rest)

/-- `nextContainer` at a level (iterators.hpp:40–76): `none` is a NULL dereference; the inner option is
the returned container (`none` for NULL). -/
def nextUp (dim : ℕ) : List (ℤ × List (Elem T)) →
    Option (Option (List (Term T)) × List (ℤ × List (Elem T)))
  | [] => none
  | (_, []) :: _ => none
  | (x, _ :: rest) :: up =>
    match skip (x + 1) rest with
    | (x', []) =>
      match up with
      | [] => some (none, [(x', [])])
      | u :: us => nextUp dim (u :: us)
    | (x', e :: es) =>
      (firstContainer (dim - (up.length + 1)) e ((x', e :: es) :: up)).map fun r => (some r.1, r.2)

/-- `nextContainer`, iterators.hpp:30–77. -/
def nextContainer (it : It T) : Option (Option (List (Term T)) × It T) :=
  match it.path with
  | [] =>
    match it.root with
    | none => none
    | some t =>
      match t.elems with
      | [] => none
      | e :: es =>
        (firstContainer (it.dim - 1) e [(t.lo, e :: es)]).map fun r =>
          (some r.1, { it with path := r.2 })
  | p :: ps => (nextUp it.dim (p :: ps)).map fun r => (r.1, { it with path := r.2 })

/-- The term put together by `nextTerm` (iterators.hpp:113–119): the exponents along the path, then those
of the stored term. Reading beyond the exponents of the stored term is `none`. -/
def assemble (dim : ℕ) (path : List (ℤ × List (Elem T))) (s : Term T) : Option (Term T) :=
  if dim - path.length ≤ s.exps.length then
    some ⟨s.coef, (path.map Prod.fst).reverse ++ s.exps.take (dim - path.length), s.degree⟩
  else none

/-- `nextTerm`, iterators.hpp:96–130, without the recursive call on a zero coefficient: the inner option
is the term (`none` for NULL). -/
def stepTerm (it : It T) : Option (Option (Term T) × It T) :=
  match it.stored with
  | s :: rest => (assemble it.dim it.path s).map fun t => (some t, { it with stored := rest })
  | [] =>
    match nextContainer it with
    | none => none
    | some (none, it) => some (none, it)
    | some (some [], _) => none
    | some (some (s :: rest), it) =>
      (assemble it.dim it.path s).map fun t => (some t, { it with stored := rest })

/-- `nextTerm` (iterators.hpp:96–130): terms with coefficient zero are skipped by a recursive call, whose
depth is bounded by `fuel` here. -/
def nextTerm : (fuel : ℕ) → It T → Option (Option (Term T) × It T)
  | 0, _ => none
  | k + 1, it =>
    match stepTerm it with
    | none => none
    | some (none, it) => some (none, it)
    | some (some t, it) => if t.coef = 0 then nextTerm k it else some (some t, it)

/-- `while ((term = it->nextTerm()))` from the current state: all terms delivered until NULL. -/
def drain (fuel : ℕ) : (rounds : ℕ) → It T → Option (List (Term T))
  | 0, _ => none
  | k + 1, it =>
    match nextTerm fuel it with
    | none => none
    | some (none, _) => some []
    | some (some t, it) => (drain fuel k it).map (t :: ·)

/-! ## Insertion into polynomials -/

/-- `monomialSum` / `linFormSum` (burstTrie.h:24–45). -/
structure Sum (T : Type) where
  termCount : ℕ
  varCount : ℕ
  trie : Option (Root T)

/-- `insertMonomial` (PolyTrie.cpp:81–105; `degree` is -1) and `insertLinForm` (246–277): a zero
coefficient is ignored; the first term starts a new trie. -/
def insertSum (s : Sum T) (x : Term T) : Option (Sum T) :=
  if x.coef = 0 then some s
  else
    let t := if s.termCount = 0 then none else s.trie
    (insertTrie s.varCount x.coef x.degree x.exps t).map fun r =>
      { s with termCount := s.termCount + 1, trie := some r }

/-- A sequence of insertions. -/
def insertAll (s : Sum T) (xs : List (Term T)) : Option (Sum T) :=
  xs.foldl (fun acc x => acc.bind fun s => insertSum s x) (some s)

end Verif.Trie
