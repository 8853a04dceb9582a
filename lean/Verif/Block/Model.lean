import Verif.Trie.Insert
import Verif.Trie.DecModel

/-!
# Block storage of polynomials and of sums of powers of linear forms (model)

Models `code/latte/integration/blockReps.h` (`_insertMonomial`, `_insertLinForm`), the iterators
`MBlockIterator` and `LBlockIterator` of `code/latte/integration/iterators.hpp:155–330`, and `_decompose`
of `code/latte/integration/PolyRep.cpp:284–405`.

A linked list of blocks is a list; a pointer to a block is its position where the block is written to, and
the rest of the list where it is only read (NULL is the position after the end, the empty list). An access
to NULL or outside an array is `none`. `int` and `ZZ` are `ℤ`.
-/

namespace Verif.Block

open Verif.Trie

/-- `BLOCK_SIZE`, blockReps.h:10. -/
def blockSize : ℕ := 64

/-- What the two kinds of blocks (`eBlock`, `lBlock`) offer: a fresh one, the comparison of place `i` with a
given key, storing a key at place `i`, reading place `i`. -/
structure Layout (B : Type) where
  fresh : B
  same : B → ℕ → Key → Option Bool
  put : B → ℕ → Key → Option B
  get : B → ℕ → Option Key

/-! ## Exponent blocks -/

/-- blockReps.h:73–78: compare consecutive entries of an array with a list, up to the first
difference. -/
def matchAt (blk : List ℤ) : ℕ → List ℤ → Option Bool
  | _, [] => some true
  | off, e :: es =>
    match blk[off]? with
    | none => none
    | some x => if x ≠ e then some false else matchAt blk (off + 1) es

/-- blockReps.h:98–101: write consecutive entries. -/
def writeAt : List ℤ → ℕ → List ℤ → Option (List ℤ)
  | blk, _, [] => some blk
  | blk, off, e :: es => if off < blk.length then writeAt (blk.set off e) (off + 1) es else none

/-- iterators.hpp:197–200: read consecutive entries. -/
def readAt (blk : List ℤ) : ℕ → ℕ → Option (List ℤ)
  | _, 0 => some []
  | off, n + 1 =>
    match blk[off]? with
    | none => none
    | some x => (readAt blk (off + 1) n).map (x :: ·)

/-- `eBlock` (blockReps.h:15–20) for `v` variables: one array of `v * BLOCK_SIZE` integers, place `i` at
`i * v` (lines 74–78, 95, 98–101; iterators.hpp:197–200). `junk` is the uninitialised content of
`new int[…]`. The degree of a monomial is reported as -1 (iterators.hpp:178). -/
def eLayout (v : ℕ) (junk : ℤ) : Layout (List ℤ) where
  fresh := List.replicate (v * blockSize) junk
  same blk i k := matchAt blk (i * v) k.2
  put blk i k := writeAt blk (i * v) k.2
  get blk i := (readAt blk (i * v) v).map fun es => (-1, es)

/-! ## Blocks of linear forms -/

/-- `lBlock` (blockReps.h:22–28). -/
structure LBlk where
  data : List (List ℤ)
  degree : List ℤ

/-- Blocks of linear forms for `v` variables: comparison blockReps.h:151–164, storing 180–182, reading
iterators.hpp:277–283. A fresh `vec_ZZ` is empty; `junk` is the uninitialised content of `degree`. Reading
an entry of a `vec_ZZ` outside its length is an NTL error. -/
def lLayout (v : ℕ) (junk : ℤ) : Layout LBlk where
  fresh := ⟨List.replicate blockSize [], List.replicate blockSize junk⟩
  same blk i k :=
    match blk.degree[i]?, blk.data[i]? with
    | some d, some es => some (decide (d = k.1) && decide (es = k.2))
    | _, _ => none
  put blk i k :=
    if i < blk.data.length ∧ i < blk.degree.length ∧ v ≤ k.2.length then
      some ⟨blk.data.set i (k.2.take v), blk.degree.set i k.1⟩
    else none
  get blk i :=
    match blk.degree[i]?, blk.data[i]? with
    | some d, some es => if v ≤ es.length then some (d, es.take v) else none
    | _, _ => none

/-! ## The store -/

variable {B T : Type} [AddCommMonoid T]

/-- `_monomialSum`, `_linFormSum` (blockReps.h:36–48): the number of terms, the list of key blocks, the
list of coefficient blocks. -/
structure Store (B T : Type) where
  termCount : ℕ
  keys : List B
  coefs : List (List T)

/-- A store nothing has been inserted into (`termCount = 0`; the pointers are not looked at). -/
def emptyStore (B T : Type) : Store B T := ⟨0, [], []⟩

/-- The search loop, blockReps.h:63–85 and 141–167: `k` rounds from round `i` on, the pointers at block
`b`. Result: the index of the first equal key, if any, and the block the pointers end at. -/
def search (L : Layout B) (keys : List B) (key : Key) : (k : ℕ) → (i b : ℕ) →
    Option (Option ℕ × ℕ)
  | 0, _, b => some (none, b)
  | k + 1, i, b =>
    let b := if i > 0 ∧ i % blockSize = 0 then b + 1 else b
    match keys[b]? with
    | none => none
    | some blk =>
      match L.same blk (i % blockSize) key with
      | none => none
      | some true => some (some i, b)
      | some false => search L keys key k (i + 1) b

/-- `data[i] = f(data[i])` in coefficient block `b`. -/
def modifyCoef (coefs : List (List T)) (b i : ℕ) (f : T → T) : Option (List (List T)) :=
  match coefs[b]? with
  | none => none
  | some blk =>
    match blk[i]? with
    | none => none
    | some c => some (coefs.set b (blk.set i (f c)))

/-- Storing a new term at place `termCount % BLOCK_SIZE` of block `b`, blockReps.h:98–103, 180–184. -/
def store (L : Layout B) (s : Store B T) (b : ℕ) (coef : T) (key : Key) : Option (Store B T) :=
  match s.keys[b]? with
  | none => none
  | some blk =>
    match L.put blk (s.termCount % blockSize) key with
    | none => none
    | some blk' =>
      (modifyCoef s.coefs b (s.termCount % blockSize) fun _ => coef).map fun cs =>
        ⟨s.termCount + 1, s.keys.set b blk', cs⟩

/-- `_insertMonomial` (blockReps.h:54–125) and `_insertLinForm` (131–205). -/
def insert (L : Layout B) (s : Store B T) (x : Term T) : Option (Store B T) :=
  if s.termCount > 0 then
    match search L s.keys x.key s.termCount 0 0 with
    | none => none
    | some (some i, b) =>
      (modifyCoef s.coefs b (i % blockSize) (· + x.coef)).map fun cs => { s with coefs := cs }
    | some (none, b) =>
      if s.termCount % blockSize = 0 then
        if b < s.keys.length ∧ b < s.coefs.length then
          store L { s with keys := s.keys.take (b + 1) ++ [L.fresh],
                           coefs := s.coefs.take (b + 1) ++ [List.replicate blockSize 0] } (b + 1)
            x.coef x.key
        else none
      else store L s b x.coef x.key
  else store L { s with keys := [L.fresh], coefs := [List.replicate blockSize 0] } 0 x.coef x.key

/-- A sequence of insertions. -/
def insertAll (L : Layout B) : Store B T → List (Term T) → Option (Store B T)
  | s, [] => some s
  | s, x :: xs => (insert L s x).bind fun s => insertAll L s xs

/-! ## Iteration -/

/-- `MBlockIterator`, `LBlockIterator` (iterators.hpp:155–330): the block pointers, `blockIndex`,
`termIndex`. -/
structure It (B T : Type) where
  curKeys : List B
  curCoefs : List (List T)
  blockIndex : ℕ
  termIndex : ℕ

/-- `setLists`, `begin`, iterators.hpp:166–186, 247–267. -/
def begin' (s : Store B T) : It B T := ⟨s.keys, s.coefs, 0, 0⟩

/-- `nextTerm`, iterators.hpp:188–210, 269–293; the inner option is the term (`none` for NULL). The
recursive call is made with `blockIndex = 0`, so its depth is at most one; `fuel` bounds it. -/
def nextTerm (L : Layout B) (count : ℕ) : (fuel : ℕ) → It B T → Option (Option (Term T) × It B T)
  | 0, _ => none
  | f + 1, it =>
    match it.curCoefs, it.curKeys with
    | cb :: cbs, kb :: kbs =>
      if it.termIndex = count then some (none, it)
      else if it.blockIndex < blockSize then
        match cb[it.blockIndex]?, L.get kb it.blockIndex with
        | some c, some k =>
          some (some ⟨c, k.2, k.1⟩,
            { it with blockIndex := it.blockIndex + 1, termIndex := it.termIndex + 1 })
        | _, _ => none
      else nextTerm L count f { it with curCoefs := cbs, curKeys := kbs, blockIndex := 0 }
    | _, _ => some (none, it)

/-- `while (term = it->nextTerm())`. -/
def drain (L : Layout B) (count : ℕ) : (rounds : ℕ) → It B T → Option (List (Term T))
  | 0, _ => none
  | k + 1, it =>
    match nextTerm L count 2 it with
    | none => none
    | some (none, _) => some []
    | some (some t, it) => (drain L count k it).map (t :: ·)

/-! ## Decomposition -/

/-- The test for a constant term, PolyRep.cpp:298–307. The entries looked at start at
`mIndex * varCount`: the `% BLOCK_SIZE` is missing. -/
def constantTest (blk : List ℤ) : ℕ → ℕ → Option Bool
  | _, 0 => some true
  | off, n + 1 =>
    match blk[off]? with
    | none => none
    | some x => if x ≠ 0 then some false else constantTest blk (off + 1) n

/-- `_decompose`, PolyRep.cpp:288–405, of term `m`: the linear forms passed to `_insertLinForm`. From line
320 on the code is that of `decompose` (PolyTrie.cpp:520–612) with the exponents read at
`(mIndex % BLOCK_SIZE) * varCount`; for a term that is not constant `formsCount ≠ 0` there. -/
def decomposeAt (v : ℕ) (s : Store (List ℤ) ℚ) (m : ℕ) : Option (List (Term ℚ)) :=
  match s.keys[m / blockSize]?, s.coefs[m / blockSize]? with
  | some blk, some cb =>
    match constantTest blk (m * v) v, cb[m % blockSize]? with
    | some true, some c => some [⟨c, List.replicate v 0, 0⟩]
    | some false, some c =>
      match readAt blk (m % blockSize * v) v with
      | none => none
      | some es => formLoop c (es.foldl (fun a e => a + e) 0)
          (es.foldl (fun a e => a * (e + 1)) 1 - 1).toNat (es.map fun e => ⟨e, 0, 1⟩)
    | _, _ => none
  | _, _ => none

/-- The loop of the callers (newIntegration.cpp:524–525, versusMode.cpp:205–208):
`for (i = 0; i < myPoly.termCount; i++) _decompose(myPoly, lForm, i)`. -/
def decomposeAll (v : ℕ) (junk : ℤ) (s : Store (List ℤ) ℚ) : (k m : ℕ) → Store LBlk ℚ →
    Option (Store LBlk ℚ)
  | 0, _, l => some l
  | k + 1, m, l =>
    match decomposeAt v s m with
    | none => none
    | some fs => (insertAll (lLayout v junk) l fs).bind (decomposeAll v junk s k (m + 1))

end Verif.Block
