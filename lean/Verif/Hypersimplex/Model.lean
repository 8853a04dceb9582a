import Mathlib.Data.List.Nodup
import Mathlib.Data.List.Count
import Mathlib.Algebra.Order.Ring.Int

/-!
# C99: the vertices of hypersimplices (model)

`code/latte/buildPolytopes/BuildHypersimplexEdgePolytope.cpp`, and `addPoint` of `BuildPolytope.cpp`.  Points have integer entries here (the code uses `mpq_class`, with the values 0 and 1 only).
-/

namespace Verif.Hypersimplex

/-- Lines 39–43: the search for the last one from index `k` on, with the number of indices left.  The loop goes on as long as the result is −1, also when −1 has been assigned. -/
def lastOne (cur : List ℤ) : ℕ → ℕ → ℤ
  | 0, _ => -1
  | m + 1, k => if cur.getD k 0 = 0 ∧ (k : ℤ) - 1 ≠ -1 then (k : ℤ) - 1 else lastOne cur m (k + 1)

/-- Lines 55–64: the last one moves to the end, from index `k` on. -/
def slide (cur : List ℤ) : ℕ → ℕ → List (List ℤ)
  | 0, _ => []
  | m + 1, k => ((cur.set k 0).set (k + 1) 1) :: slide ((cur.set k 0).set (k + 1) 1) m (k + 1)

/-- Lines 81–82: ones at `count` indices from `j` on. -/
def ones (cur : List ℤ) : ℕ → ℕ → List ℤ
  | 0, _ => cur
  | m + 1, j => ones (cur.set j 1) m (j + 1)

/-- Lines 78–94: the block of ones from `base` to `last` moves, and the recursion is called with the index after its first one. -/
def shifts (rec : List ℤ → ℕ → Bool → List (List ℤ)) : ℕ → List ℤ → ℕ → ℤ → List (List ℤ)
  | 0, _, _, _ => []
  | m + 1, cur, base, last =>
    rec (ones (cur.set base 0) (last + 1 - base).toNat (base + 1)) (base + 2) true ++
      shifts rec m (ones (cur.set base 0) (last + 1 - base).toNat (base + 1)) (base + 1) (last + 1)

/-- `addToPoints`, lines 27–96: the points appended to the list.  The first argument bounds the depth of the recursion; the depth is at most `d`, for `base` grows. -/
def addToPoints (d : ℕ) : ℕ → List ℤ → ℕ → Bool → List (List ℤ)
  | 0, _, _, _ => []
  | fuel + 1, cur, base, addCurrent =>
    (if addCurrent then [cur] else []) ++
      if base + 1 ≥ d then []
      else
        if lastOne cur (d - base) base = -1 then (if addCurrent then [] else [cur])
        else if lastOne cur (d - base) base - base = 0 then
          slide cur (d - 1 - (lastOne cur (d - base) base).toNat) (lastOne cur (d - base) base).toNat
        else
          addToPoints d fuel cur (base + 1) false ++
            shifts (addToPoints d fuel) ((d : ℤ) - lastOne cur (d - base) base - 1).toNat cur base (lastOne cur (d - base) base)

/-- `generatePoints`, lines 103–122, with `addPoint` (BuildPolytope.cpp 43–47): a one in front of each point. -/
def generatePoints (d k : ℕ) : List (List ℤ) :=
  (addToPoints d (d + 1) (List.replicate k 1 ++ List.replicate (d - k) 0) 0 true).map (1 :: ·)

end Verif.Hypersimplex
