import Verif.Model.Printer

/-!
Specification vocabulary for printed expressions: the usual reading rules, Rust's reading rules, the
meaning of Rust's operators, and the trees whose shape survives printing.
-/

namespace Doodle
namespace Printer

open Reading
open Num (BasicBinOp BasicUnaryOp)

/-! ### numeric expressions -/

/-- The usual rules: `* / %` bind tighter than `+ -`; `++` and `--` apply to everything after them. -/
def numRules : Rules NumBin NumUn NumCast where
  level := fun o => match o.op with
    | .add => 10
    | .sub => 10
    | .mul => 11
    | .div => 11
    | .rem => 11
  unchained := fun _ => false
  far := fun o => match o.op with
    | .intSucc => true
    | .intPred => true
    | .negate => false
    | .absVal => false
  near := fun _ => false

/-- operators the printer does not tell apart when deciding on parentheses -/
inductive NumClass where
  | addSub | mul | divRem
deriving DecidableEq

def numClass : BasicBinOp → NumClass
  | .add => .addSub
  | .sub => .addSub
  | .mul => .mul
  | .div => .divRem
  | .rem => .divRem

/-- The right operand of an operator is not an operator of the same class. -/
def LeftLeaning : Num.Expr → Prop
  | .const _ => True
  | .numVar _ => True
  | .unaryOp _ _ e => LeftLeaning e
  | .cast _ _ e => LeftLeaning e
  | .binOp op _ l r => LeftLeaning l ∧ LeftLeaning r ∧
      ∀ op' rep l' r', r = .binOp op' rep l' r' → numClass op' ≠ numClass op

/-- `l op r` with the operators of the same class regrouped to the left:
`l op (a op' b)` becomes `(l op a) op' b`. -/
def attach (op : BasicBinOp) (rep : Option Num.MachineRep) (l : Num.Expr) : Num.Expr → Num.Expr
  | .binOp op' rep' a b =>
    if numClass op' = numClass op then .binOp op' rep' (attach op rep l a) b
    else .binOp op rep l (.binOp op' rep' a b)
  | r => .binOp op rep l r

/-- The expression with every chain of operators of one class regrouped to the left. -/
def regroup : Num.Expr → Num.Expr
  | .const c => .const c
  | .numVar x => .numVar x
  | .unaryOp op rep e => .unaryOp op rep (regroup e)
  | .cast rep bw e => .cast rep bw (regroup e)
  | .binOp op rep l r => attach op rep (regroup l) (regroup r)

/-! ### Rust -/

/-- Rust's operator precedence (The Rust Reference, "Expression precedence"): method calls, fields, `?`
and indexing, then `! * &`, then `as`, then `* / %`, `+ -`, `<< >>`, `&`, `|`, comparisons (which require
parentheses to be chained), `&&`, `||`. -/
def rustRules : Rules InfixOperator RPre RPost where
  level := fun o => match o with
    | .mul => 11 | .div => 11 | .rem => 11
    | .add => 10 | .sub => 10
    | .shl => 9 | .shr => 9
    | .bitAnd => 8
    | .bitOr => 6
    | .eq => 5 | .neq => 5 | .lt => 5 | .lte => 5 | .gt => 5 | .gte => 5
    | .boolAnd => 4
    | .boolOr => 3
  unchained := fun o => match o with
    | .eq => true | .neq => true | .lt => true | .lte => true | .gt => true | .gte => true
    | _ => false
  far := fun _ => false
  near := fun o => match o with
    | .asCast _ => false
    | _ => true

/-- kinds of infix operators -/
inductive InfixClass where
  | mul | divRem | addSub | shift | bitAnd | bitOr | equality | order | and | or
deriving DecidableEq

def infixClass : InfixOperator → InfixClass
  | .mul => .mul
  | .div => .divRem
  | .rem => .divRem
  | .add => .addSub
  | .sub => .addSub
  | .shl => .shift
  | .shr => .shift
  | .bitAnd => .bitAnd
  | .bitOr => .bitOr
  | .eq => .equality
  | .neq => .equality
  | .lt => .order
  | .lte => .order
  | .gt => .order
  | .gte => .order
  | .boolAnd => .and
  | .boolOr => .or

def InfixClass.compares : InfixClass → Bool
  | .equality => true
  | .order => true
  | _ => false

def InfixClass.logical : InfixClass → Bool
  | .and => true
  | .or => true
  | _ => false

variable {α : Type}

/-- the class of the operator at the root -/
def rootClass : Tree α InfixOperator RPre RPost → Option InfixClass
  | .bin o _ _ => some (infixClass o)
  | _ => none

/-- `*x` or `&x` at the root -/
def isPointer : Tree α InfixOperator RPre RPost → Bool
  | .pre .deref _ => true
  | .pre .borrow _ => true
  | _ => false

/-- Trees whose grouping survives printing: the right operand of an operator is not an operator of the
same class; operands of comparisons are neither comparisons of the same class nor `&&`/`||`; a projection
is not applied to `*x` or `&x`. -/
def Tame : Tree α InfixOperator RPre RPost → Prop
  | .atom _ => True
  | .bin o l r => Tame l ∧ Tame r ∧ rootClass r ≠ some (infixClass o) ∧
      ((infixClass o).compares = true → rootClass l ≠ some (infixClass o) ∧
        (∀ c, rootClass l = some c → c.logical = false) ∧ (∀ c, rootClass r = some c → c.logical = false))
  | .pre _ e => Tame e
  | .post o e => Tame e ∧ (rustRules.near o = true → isPointer e = false)

/-- values of the generated arithmetic: `bool` and the unsigned integer types -/
inductive RVal where
  | bool (b : Bool)
  | uint (k : UKind) (n : Nat)
deriving DecidableEq, Repr

/-- an integer of type `k`, if it is one: arithmetic overflow panics with overflow checks and wraps
without -/
def wrap (checks : Bool) (k : UKind) (n : Nat) : Option RVal :=
  if n < k.card then some (.uint k n) else if checks then none else some (.uint k (n % k.card))

/-- The value of an infix operator in Rust, with or without overflow checks; `none` is a panic (or a type
error). -/
def rustInfix (checks : Bool) : InfixOperator → RVal → RVal → Option RVal
  | .boolAnd, .bool a, .bool b => some (.bool (a && b))
  | .boolOr, .bool a, .bool b => some (.bool (a || b))
  | .shl, .uint k a, .uint _ b =>
    if b < k.bits then some (.uint k (a <<< b % k.card))
    else if checks then none else some (.uint k (a <<< (b % k.bits) % k.card))
  | .shr, .uint k a, .uint _ b =>
    if b < k.bits then some (.uint k (a >>> b))
    else if checks then none else some (.uint k (a >>> (b % k.bits)))
  | o, .uint k a, .uint k' b =>
    if k = k' then
      match o with
      | .add => wrap checks k (a + b)
      | .sub => if b ≤ a then some (.uint k (a - b)) else if checks then none
          else some (.uint k (k.card + a - b))
      | .mul => wrap checks k (a * b)
      | .div => if b = 0 then none else some (.uint k (a / b))
      | .rem => if b = 0 then none else some (.uint k (a % b))
      | .bitAnd => some (.uint k (a &&& b))
      | .bitOr => some (.uint k (a ||| b))
      | .eq => some (.bool (a == b))
      | .neq => some (.bool (a != b))
      | .lt => some (.bool (decide (a < b)))
      | .lte => some (.bool (decide (a ≤ b)))
      | .gt => some (.bool (decide (a > b)))
      | .gte => some (.bool (decide (a ≥ b)))
      | _ => none
    else none
  | .eq, .bool a, .bool b => some (.bool (a == b))
  | .neq, .bool a, .bool b => some (.bool (a != b))
  | _, _, _ => none

/-- The value of an operator expression in Rust, given the values of its leaves.  `&&` and `||` do not
evaluate their right operand when the left one decides.  Projections and pointers are not given a
meaning. -/
def rustValue (checks : Bool) (leaf : α → Option RVal) : Tree α InfixOperator RPre RPost → Option RVal
  | .atom a => leaf a
  | .bin o l r =>
    match rustValue checks leaf l with
    | none => none
    | some a =>
      match o, a with
      | .boolAnd, .bool false => some (.bool false)
      | .boolOr, .bool true => some (.bool true)
      | _, _ =>
        match rustValue checks leaf r with
        | none => none
        | some b => rustInfix checks o a b
  | .pre .boolNot e =>
    match rustValue checks leaf e with
    | some (.bool b) => some (.bool (!b))
    | _ => none
  | .post (.asCast w) e =>
    match rustValue checks leaf e with
    | some (.uint _ n) => some (.uint (.fixed w) (n % (UKind.fixed w).card))
    | _ => none
  | _ => none

/-- a value of the interpreter as a value of generated arithmetic -/
def RVal.ofValue : Value → Option RVal
  | .bool b => some (.bool b)
  | .num k n => some (.uint k n.val)
  | _ => none

/-- the leaves of an operator expression -/
def leaves {α β π ρ : Type} : Tree α β π ρ → List α
  | .atom a => [a]
  | .bin _ l r => leaves l ++ leaves r
  | .pre _ e => leaves e
  | .post _ e => leaves e

/-- no shift operator occurs outside the leaves -/
def NoShift {α : Type} : Tree α InfixOperator RPre RPost → Prop
  | .atom _ => True
  | .bin o l r => o ≠ .shl ∧ o ≠ .shr ∧ NoShift l ∧ NoShift r
  | .pre _ e => NoShift e
  | .post _ e => NoShift e

/-- The generated code of every leaf computes the value the interpreter gives that leaf. -/
def LeavesAgree {δ : Type} (s : Scope δ) (leaf : Expr → Option RVal) (e : Expr) : Prop :=
  ∀ x ∈ leaves (embed e), ∀ v, x.eval s = .ok v →
    ∃ r, RVal.ofValue v.coerceMapped = some r ∧ leaf x = some r

end Printer
end Doodle
