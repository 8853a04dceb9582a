import Verif.Rational.Props

/-!
Model of `code/latte/top-knapsack/PeriodicFunction.{h,cpp}`: expression trees over numbers and
functions `t ↦ {q t}` (fractional part), in both implementations (shared pointers, raw pointers).

The nodes of the shared-pointer implementation are never modified after construction, and the raw-pointer
implementation makes deep copies, so a tree is modelled by its value.
-/

namespace Verif.Periodic

open Latte.Rational

/-- PeriodicFunction.h:46 `enum Operation`. -/
inductive Op where
  | plus | minus | times | divide | power
  deriving DecidableEq, Repr

/-- PeriodicFunction.h:40-70 `PeriodicFunctionNode`: a leaf (`isLeaf()`, both children null) carries
`isNumber` and `data`; an inner node (constructor PeriodicFunction.cpp:37-40, 315-318; always with two
children) carries the operation and has `isNumber = false`. -/
inductive Node where
  | leaf (isNumber : Bool) (data : RatN)
  | node (opt : Op) (left right : Node)
  deriving DecidableEq, Repr

/-- PeriodicFunction.cpp:57-60 `isLeaf() && isNumber`, with the data. -/
def Node.number? : Node → Option RatN
  | .leaf true d => some d
  | _ => none

/-! ### shared-pointer implementation (PeriodicFunction.cpp:11-290) -/

namespace Shared

/-- PeriodicFunction.cpp:78-81 default constructor. -/
def new : Node := .leaf true (mk' 0 1)

/-- PeriodicFunction.cpp:85-94 `setToConstant` (both overloads; the int overload passes `RationalNTL(c,1)`). -/
def setToConstant (c : RatN) : Node := .leaf true c

/-- PeriodicFunction.cpp:100-110 `add`. -/
def add (head p : Node) : Option Node :=
  match head.number?, p.number? with
  | some a, some b => (Latte.Rational.add a b).map (.leaf true)
  | _, _ => some (.node .plus head p)

/-- PeriodicFunction.cpp:115-125 `subtract`. -/
def subtract (head p : Node) : Option Node :=
  match head.number?, p.number? with
  | some a, some b => (Latte.Rational.sub a b).map (.leaf true)
  | _, _ => some (.node .minus head p)

/-- PeriodicFunction.cpp:150-161 `pow`. -/
def pow (head : Node) (p : Int) : Option Node :=
  if p = 0 then some (.leaf true (mk' 1 1))
  else match head.number? with
    | some a => (Latte.Rational.power a p).map (.leaf true)
    | none => some (.node .power head (.leaf true (mk' p 1)))

/-- PeriodicFunction.cpp:166-174 `div`. -/
def div (head : Node) (d : Int) : Node :=
  if d = 1 then head
  else match head.number? with
    | some a => .leaf true (divZ a d)
    | none => .node .divide head (.leaf true (mk' d 1))

/-- PeriodicFunction.cpp:179-189 `times(const RationalNTL &)`. -/
def timesQ (head : Node) (d : RatN) : Node :=
  match head.number? with
  | some a => .leaf true (Latte.Rational.mul a d)
  | none => .node .times head (.leaf true d)

/-- PeriodicFunction.cpp:191-200 `times(const PeriodicFunction &)`. -/
def times (head p : Node) : Node :=
  match head.number?, p.number? with
  | some a, some b => .leaf true (Latte.Rational.mul a b)
  | _, _ => .node .times head p

/-- PeriodicFunction.cpp:210-213 `operator==(int)`. -/
def eqInt (head : Node) (x : Int) : Bool :=
  match head.number? with
  | some a => eqZ a x
  | none => false

end Shared

/-! ### raw-pointer implementation (PeriodicFunction.cpp:292-588); `none` is the null pointer -/

namespace Raw

/-- result of a call: the new head, a failed assertion, or the dereference of a null pointer -/
inductive Res where
  | ok (head : Option Node)
  | assertion
  | nullDeref
  deriving DecidableEq

/-- wrap an optional rational (failed assertion = `none`) as a new number -/
def Res.num : Option RatN → Res
  | some r => .ok (some (.leaf true r))
  | none => .assertion

/-- PeriodicFunction.cpp:386-399 `add`. -/
def add (head p : Option Node) : Res :=
  match p with
  | none => .ok head
  | some pn =>
    match head with
    | none => .ok p
    | some h =>
      match h.number?, pn.number? with
      | some a, some b => Res.num (Latte.Rational.add a b)
      | _, _ => .ok (some (.node .plus h pn))

/-- PeriodicFunction.cpp:401-413 `subtract`: with a null head the argument is copied without a change of sign. -/
def subtract (head p : Option Node) : Res :=
  match p with
  | none => .ok head
  | some pn =>
    match head with
    | none => .ok p
    | some h =>
      match h.number?, pn.number? with
      | some a, some b => Res.num (Latte.Rational.sub a b)
      | _, _ => .ok (some (.node .minus h pn))

/-- PeriodicFunction.cpp:443-459 `pow`. -/
def pow (head : Option Node) (p : Int) : Res :=
  if p = 0 then .ok (some (.leaf true (mk' 1 1)))
  else match head with
    | none => .ok none
    | some h =>
      if p = 1 then .ok head
      else match h.number? with
        | some a => Res.num (Latte.Rational.power a p)
        | none => .ok (some (.node .power h (.leaf true (mk' p 1))))

/-- PeriodicFunction.cpp:461-472 `div`. -/
def div (head : Option Node) (d : Int) : Res :=
  if d = 1 then .ok head
  else match head with
    | none => .ok none
    | some h => match h.number? with
      | some a => .ok (some (.leaf true (divZ a d)))
      | none => .ok (some (.node .divide h (.leaf true (mk' d 1))))

/-- PeriodicFunction.cpp:474-486 `times(const RationalNTL &)`. -/
def timesQ (head : Option Node) (d : RatN) : Res :=
  match head with
  | none => .ok none
  | some h => match h.number? with
    | some a => .ok (some (.leaf true (Latte.Rational.mul a d)))
    | none => .ok (some (.node .times h (.leaf true d)))

/-- PeriodicFunction.cpp:488-499 `times(const PeriodicFunction &)`: `p.head` is dereferenced without a null check
(line 492 if the head is a number, line 497 otherwise). -/
def times (head p : Option Node) : Res :=
  match head with
  | none => .ok none
  | some h =>
    match p with
    | none => .nullDeref
    | some pn =>
      match h.number?, pn.number? with
      | some a, some b => .ok (some (.leaf true (Latte.Rational.mul a b)))
      | _, _ => .ok (some (.node .times h pn))

/-- PeriodicFunction.cpp:506-513 `operator==(int)`. -/
def eqInt (head : Option Node) (x : Int) : Bool :=
  match head with
  | none => x == 0
  | some h => match h.number? with
    | some a => eqZ a x
    | none => false

end Raw

/-! ### text -/

/-- PeriodicFunction.cpp:273-280 the operator symbols. -/
def Op.text : Op → List Char
  | .plus => [' ', '+', ' ']
  | .minus => [' ', '-', ' ']
  | .times => ['*']
  | .divide => ['/']
  | .power => ['^']

/-- PeriodicFunction.cpp:260-287 `operator<<` of a node (shared-pointer implementation). -/
def Node.print : Node → List Char
  | .leaf true d => '(' :: (Latte.Rational.print d ++ [')'])
  | .leaf false d =>
    ['(', ' ', 'M', 'O', 'D', '(', ' ', 't', ' ', '*', ' ', '('] ++
      (Latte.Rational.print d ++ [')', ',', ' ', '1', ' ', ')', ' ', ')'])
  | .node o l r => '(' :: (l.print ++ (o.text ++ (r.print ++ [')'])))

end Verif.Periodic
