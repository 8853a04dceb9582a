/-!
Model of `class IntCombEnum` (code/latte/genFunction/IntCombEnum.cpp). Arrays are functions of the index of which only
indices `< len` exist. `cur_col` ranges over `-1 .. len-1` and is stored as `col = cur_col + 1`. `int` entries are
natural numbers (they stay between 0 and the bound; `GetMaxMultipliers_int` has checked that bounds fit).
-/

namespace Latte.Enum

/-- IntCombEnum.h:33-42 members. -/
structure St where
  len : Nat
  ub : Nat → Nat
  prev : Nat → Nat
  col : Nat

/-- IntCombEnum.cpp:28-42 constructor. -/
def create (u : Nat → Nat) (l : Nat) : St := ⟨l, u, fun _ => 0, l⟩

/-- IntCombEnum.cpp:81-85 `decrementUpperBound`; bounds are positive when it is called (piped.cpp:327). -/
def decrementUpperBound (s : St) : St := { s with ub := fun i => if i < s.len then s.ub i - 1 else s.ub i }

/-- IntCombEnum.cpp:51-53 `set_zero` from column `c` to `len - 1`. -/
def setZero (v : Nat → Nat) (c len : Nat) : Nat → Nat := fun i => if c ≤ i ∧ i < len then 0 else v i

/-- IntCombEnum.cpp:64-74 the `while (cur_col >= 0)` loop; first argument is `cur_col + 1`. -/
def carry (len : Nat) (ub prev : Nat → Nat) : Nat → (Nat → Nat) → (Nat → Nat) × Nat
  | 0, next => (next, 0)
  | c + 1, next =>
    let next1 := setZero next c len
    match c with
    | 0 => (next1, 0)
    | c' + 1 =>
      if prev c' < ub c' then (fun i => if i = c' then next1 i + 1 else next1 i, len)
      else carry len ub prev (c' + 1) next1

/-- IntCombEnum.cpp:93-108 `is_last`. -/
def isLast (s : St) : Bool := (List.range s.len).all (fun i => s.prev i == 0) && s.col == 0

/-- Result of a call: end marker, a combination with the new state, or an access outside the arrays. -/
inductive Res where
  | done
  | out (s : St) (v : List Nat)
  | undefined

/-- IntCombEnum.cpp:55-79 `getNext`. -/
def getNext (s : St) : Res :=
  if isLast s then .done
  else if s.col = 0 then .undefined
  else
    let r := if s.prev (s.col - 1) = s.ub (s.col - 1) then carry s.len s.ub s.prev s.col s.prev
      else (fun i => if i = s.col - 1 then s.prev i + 1 else s.prev i, s.col)
    .out { s with prev := r.1, col := r.2 } ((List.range s.len).map r.1)

/-- the answers of successive calls: `answers s k` is the answer of the `k`-th call (`none` = end marker);
outer `none` = an array was overrun. -/
def answers (s : St) : Nat → Option (Option (List Nat))
  | 0 => match getNext s with
    | .done => some none
    | .out _ v => some (some v)
    | .undefined => none
  | k + 1 => match getNext s with
    | .done => answers s k
    | .out s' _ => answers s' k
    | .undefined => none

end Latte.Enum
