import Verif.Model.NumCore

/-!
Model of value types and their unification (/repo/src/valuetype.rs).

The four unsigned `BaseType`s are one constructor indexed by the width, the four `SignedIntType`s are
their width.  A `BTreeMap<Label, ValueType>` is the list of its entries in key order; `TMap.insert` and
`TMap.get` are the operations of `BTreeMap` on such lists.  The payload of a `UnificationError` (the two
types that do not unify) is left out: `none` is the error.
-/

namespace Doodle

open Num (BitWidth MachineRep NumRep)

/-- `enum BaseType` (src/valuetype.rs:16-24). -/
inductive BaseType where
  | bool
  | num (w : BitWidth)
  | char
deriving DecidableEq, Repr

/-- `BaseType::is_numeric` (src/valuetype.rs:45-49). -/
def BaseType.isNumeric : BaseType → Bool
  | .num _ => true
  | _ => false

/-- `enum ValueType` (src/valuetype.rs:138-157). -/
inductive ValueType where
  | any
  | empty
  | viewObj
  | phantom (t : ValueType)
  | base (b : BaseType)
  | numericHole
  | signed (w : BitWidth)
  | tuple (ts : List ValueType)
  | record (fs : List (String × ValueType))
  | union (bs : List (String × ValueType))
  | seq (t : ValueType)
  | option (t : ValueType)
deriving Repr

namespace TMap
variable {α : Type}

/-- `BTreeMap::get` -/
def get (k : String) : List (String × α) → Option α
  | [] => none
  | (k', x) :: m => if k = k' then some x else get k m

/-- `BTreeMap::insert`: replaces the value of an existing key. -/
def insert (k : String) (x : α) : List (String × α) → List (String × α)
  | [] => [(k, x)]
  | (k', x') :: m =>
    if k < k' then (k, x) :: (k', x') :: m
    else if k = k' then (k, x) :: m
    else (k', x') :: insert k x m

end TMap

namespace ValueType

/-- `ValueType::U8` .. `ValueType::U64` (src/valuetype.rs:220-223). -/
def u (w : BitWidth) : ValueType := .base (.num w)

/-- `ValueType::BOOL` (src/valuetype.rs:217). -/
def bool : ValueType := .base .bool

/-- `ValueType::UNIT` (src/valuetype.rs:218). -/
def unit : ValueType := .tuple []

/-- `From<MachineRep> for ValueType` (src/valuetype.rs:175-193). -/
def ofMachine (r : MachineRep) : ValueType :=
  if r.isSigned then .signed r.bitWidth else .base (.num r.bitWidth)

/-- `From<NumRep> for ValueType` (src/valuetype.rs:195-202). -/
def ofRep : NumRep → ValueType
  | .auto => .numericHole
  | .concrete m => ofMachine m

/-- `ValueType::is_numeric` (src/valuetype.rs:367-373). -/
def isNumeric : ValueType → Bool
  | .base b => b.isNumeric
  | .numericHole => true
  | .signed _ => true
  | _ => false

end ValueType

mutual
/-- `ValueType::unify` (src/valuetype.rs:277-365), the arms in the same order.  In the `Union` arm the
code starts from an empty map and visits every key of either operand (in an arbitrary order, the result
is the same); here the entries of the first map are unified into the second. -/
def ValueType.unify : ValueType → ValueType → Option ValueType
  | .empty, .empty => some .empty
  | .any, rhs => some rhs
  | lhs, .any => some lhs
  | .empty, rhs => some rhs
  | lhs, .empty => some lhs
  | .numericHole, rhs => if rhs.isNumeric then some rhs else none
  | lhs, .numericHole => if lhs.isNumeric then some lhs else none
  | .viewObj, .viewObj => some .viewObj
  | .base b1, .base b2 => if b1 = b2 then some (.base b1) else none
  | .signed s1, .signed s2 => if s1 = s2 then some (.signed s1) else none
  | .tuple ts1, .tuple ts2 =>
    if ts1.length = ts2.length then (ValueType.unifyList ts1 ts2).map .tuple else none
  | .record fs1, .record fs2 =>
    if fs1.length = fs2.length then (ValueType.unifyFields fs1 fs2).map .record else none
  | .union bs1, .union bs2 => (ValueType.unifyInto bs1 bs2).map .union
  | .seq t1, .seq t2 => (t1.unify t2).map .seq
  | .option t1, .option t2 => (t1.unify t2).map .option
  | .phantom t1, .phantom t2 => (t1.unify t2).map .phantom
  | _, _ => none

/-- the loop over `Iterator::zip(ts1, ts2)` (src/valuetype.rs:309-313) -/
def ValueType.unifyList : List ValueType → List ValueType → Option (List ValueType)
  | t1 :: ts1, t2 :: ts2 =>
    match t1.unify t2, ValueType.unifyList ts1 ts2 with
    | some t, some ts => some (t :: ts)
    | _, _ => none
  | _, _ => some []

/-- the loop over `Iterator::zip(fs1, fs2)` (src/valuetype.rs:321-329) -/
def ValueType.unifyFields :
    List (String × ValueType) → List (String × ValueType) → Option (List (String × ValueType))
  | (l1, t1) :: fs1, (l2, t2) :: fs2 =>
    if l1 = l2 then
      match t1.unify t2, ValueType.unifyFields fs1 fs2 with
      | some t, some fs => some ((l1, t) :: fs)
      | _, _ => none
    else none
  | _, _ => some []

/-- the loop over the keys of two unions (src/valuetype.rs:333-354) -/
def ValueType.unifyInto :
    List (String × ValueType) → List (String × ValueType) → Option (List (String × ValueType))
  | [], bs => some bs
  | (k, t1) :: bs1, bs =>
    match TMap.get k bs with
    | some t2 =>
      match t1.unify t2 with
      | some t => ValueType.unifyInto bs1 (TMap.insert k t bs)
      | none => none
    | none => ValueType.unifyInto bs1 (TMap.insert k t1 bs)
end

namespace ValueType

/-- `ValueType::record_proj` (src/valuetype.rs:241-252); `none` is the panic. -/
def recordProj (t : ValueType) (label : String) : Option ValueType :=
  match t with
  | .record fields => (fields.find? fun f => label == f.1).map (·.2)
  | _ => none

end ValueType
end Doodle
