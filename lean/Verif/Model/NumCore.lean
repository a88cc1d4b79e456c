import Verif.Model.Panicky
import Verif.Model.Bounds

/-! Model of /repo/src/numeric/core.rs: machine representations, typed constants, bitwise casts and the
two evaluators of numeric expression trees.  `BigInt` is `Int`; Rust's `BigInt` `/` and `%` truncate
towards zero (`Int.tdiv`, `Int.tmod`). -/

namespace Doodle
namespace Num

/-- `BitWidth` (src/numeric/core.rs:76-81). -/
inductive BitWidth where
  | b8 | b16 | b32 | b64
deriving DecidableEq, Repr

/-- derived `Ord` of `BitWidth` (src/numeric/core.rs:75-76): declaration order. -/
def BitWidth.rank : BitWidth → Nat
  | .b8 => 0 | .b16 => 1 | .b32 => 2 | .b64 => 3

/-- number of bits -/
def BitWidth.bits : BitWidth → Nat
  | .b8 => 8 | .b16 => 16 | .b32 => 32 | .b64 => 64

/-- `MachineRep` (src/numeric/core.rs:115-118). -/
structure MachineRep where
  isSigned : Bool
  bitWidth : BitWidth
deriving DecidableEq, Repr

/-- `NumRep` (src/numeric/core.rs:171-174). -/
inductive NumRep where
  | auto
  | concrete (m : MachineRep)
deriving DecidableEq, Repr

abbrev U8 : MachineRep := ⟨false, .b8⟩
abbrev U16 : MachineRep := ⟨false, .b16⟩
abbrev U32 : MachineRep := ⟨false, .b32⟩
abbrev U64 : MachineRep := ⟨false, .b64⟩
abbrev I8 : MachineRep := ⟨true, .b8⟩
abbrev I16 : MachineRep := ⟨true, .b16⟩
abbrev I32 : MachineRep := ⟨true, .b32⟩
abbrev I64 : MachineRep := ⟨true, .b64⟩

/-- `MachineRep::is_superset` (src/numeric/core.rs:211-222). -/
def MachineRep.isSuperset (self other : MachineRep) : Bool :=
  match self.isSigned, other.isSigned, compare self.bitWidth.rank other.bitWidth.rank with
  | true, false, .gt => true
  | a, b, .eq => a == b
  | a, b, .gt => a == b
  | _, _, .lt => false

/-- `Bounds` over big integers (src/numeric/core.rs:269-272). -/
structure Bounds where
  min : Int
  max : Int
deriving DecidableEq, Repr

/-- `Bounds::encompasses` (src/numeric/core.rs:297-300); the assertion is the panic. -/
def Bounds.encompasses (self inferior : Bounds) : Panicky Bool :=
  if inferior.min ≤ inferior.max then
    .ok (decide (self.min ≤ inferior.min) && decide (self.max ≥ inferior.max))
  else .panic

/-- `Bounds::is_encompassed_by` (src/numeric/core.rs:307-310). -/
def Bounds.isEncompassedBy (self superior : Bounds) : Panicky Bool :=
  if superior.min ≤ superior.max then
    .ok (decide (self.min ≥ superior.min) && decide (self.max ≤ superior.max))
  else .panic

/-- `Bounds::unify` (src/numeric/core.rs:312-323). -/
def Bounds.unify (self bs2 : Bounds) : Panicky Bounds :=
  match self.isEncompassedBy bs2 with
  | .panic => .panic
  | .ok true => .ok bs2
  | .ok false =>
    match self.encompasses bs2 with
    | .panic => .panic
    | .ok true => .ok self
    | .ok false => .ok ⟨Min.min self.min bs2.min, Max.max self.max bs2.max⟩

/-- `Bounds::contains` (src/numeric/core.rs:325-327). -/
def Bounds.contains (self : Bounds) (val : Int) : Bool :=
  decide (self.min ≤ val) && decide (self.max ≥ val)

/-- `MachineRep::as_bounds` (src/numeric/core.rs:340-352): the `MIN`/`MAX` constants of Rust's
primitive types. -/
def MachineRep.asBounds : MachineRep → Bounds
  | ⟨false, .b8⟩ => ⟨0, 255⟩
  | ⟨false, .b16⟩ => ⟨0, 65535⟩
  | ⟨false, .b32⟩ => ⟨0, 4294967295⟩
  | ⟨false, .b64⟩ => ⟨0, 18446744073709551615⟩
  | ⟨true, .b8⟩ => ⟨-128, 127⟩
  | ⟨true, .b16⟩ => ⟨-32768, 32767⟩
  | ⟨true, .b32⟩ => ⟨-2147483648, 2147483647⟩
  | ⟨true, .b64⟩ => ⟨-9223372036854775808, 9223372036854775807⟩

/-- `MachineRep::encompasses` (src/numeric/core.rs:366-368). -/
def MachineRep.encompasses (self other : MachineRep) : Panicky Bool :=
  self.asBounds.encompasses other.asBounds

/-- `NumRep::as_bounds` (src/numeric/core.rs:373-378). -/
def NumRep.asBounds : NumRep → Option Bounds
  | .auto => none
  | .concrete m => some m.asBounds

/-- `NumRep::is_auto` (src/numeric/core.rs:380-382). -/
def NumRep.isAuto : NumRep → Bool
  | .auto => true
  | .concrete _ => false

/-- `TypedConst` (src/numeric/core.rs:392-395). -/
structure TypedConst where
  val : Int
  rep : NumRep
deriving DecidableEq, Repr

/-- `TypedConst::is_representable` (src/numeric/core.rs:444-452). -/
def TypedConst.isRepresentable (c : TypedConst) : Bool :=
  match c.rep.asBounds with
  | some b => decide (c.val ≥ b.min) && decide (c.val ≤ b.max)
  | none => true

/-- `TypedConst::as_usize` (src/numeric/core.rs:465-472); `none` is the error. -/
def TypedConst.asUsize (c : TypedConst) : Option Nat :=
  if 0 ≤ c.val ∧ c.val < (usizeCard : Int) then some c.val.toNat else none

/-- `TypedConst::get_as_unsized` (src/numeric/core.rs:474-500) for the unsigned type of `w`. -/
def TypedConst.getAsUnsized (w : BitWidth) (c : TypedConst) : Option Nat :=
  if c.rep = .concrete ⟨false, w⟩ then
    if c.isRepresentable then (if 0 ≤ c.val ∧ c.val < 2 ^ w.bits then some c.val.toNat else none)
    else none
  else if c.rep = .auto then (if 0 ≤ c.val ∧ c.val < 2 ^ w.bits then some c.val.toNat else none)
  else none

/-- `TypedConst::pat_matches` (src/numeric/core.rs:578-585), without the (off by default) cargo feature
`pattern_matches_auto_rep`. -/
def TypedConst.patMatches (c : TypedConst) (other : Nat) (rep : MachineRep) : Bool :=
  (c.rep == .concrete rep) && (c.val == (other : Int))

/-- `TypedConst::falls_within` / `matches_int_range` (src/numeric/core.rs:608-628). -/
def TypedConst.fallsWithin (c : TypedConst) (b : Doodle.Bounds) : Bool :=
  if c.val < 0 then false
  else decide (c.val.natAbs ≥ b.min) && (match b.max with
    | some m => decide (c.val.natAbs ≤ m)
    | none => true)

/-- `BasicBinOp` (src/numeric/core.rs:20-26). -/
inductive BasicBinOp where
  | add | sub | mul | div | rem
deriving DecidableEq, Repr

/-- `BasicUnaryOp` (src/numeric/core.rs:47-56). -/
inductive BasicUnaryOp where
  | negate | absVal | intSucc | intPred
deriving DecidableEq, Repr

/-- numeric `Expr` (src/numeric/core.rs:949-956); `BinOp`, `UnaryOp`, `CastOp` inlined
(src/numeric/core.rs:767-770, 847-850, 901-904); `bitwise` is `CastSemantics::Bitwise`. -/
inductive Expr where
  | const (c : TypedConst)
  | binOp (op : BasicBinOp) (outRep : Option MachineRep) (lhs rhs : Expr)
  | unaryOp (op : BasicUnaryOp) (outRep : Option MachineRep) (inner : Expr)
  | cast (outRep : MachineRep) (bitwise : Bool) (inner : Expr)
  | numVar (name : String)
deriving DecidableEq, Repr

/-- Rust's `as` between primitive integer types (language semantics): two's complement truncation or
extension into the target type. -/
def rustAs (out : MachineRep) (n : Int) : Int :=
  let m := n % 2 ^ out.bitWidth.bits
  if out.isSigned && decide (m ≥ 2 ^ (out.bitWidth.bits - 1)) then m - 2 ^ out.bitWidth.bits else m

/-- `bigint_as!` (src/numeric/core.rs:1240-1248): `try_into().expect(..)` then `as`. -/
def bigintAs (num : Int) (rIn rOut : MachineRep) : Panicky Int :=
  if rIn.asBounds.min ≤ num ∧ num ≤ rIn.asBounds.max then .ok (rustAs rOut num) else .panic

/-- The pairs that `bitwise_cast` treats with `bigint_as!` (src/numeric/core.rs:1272-1315), in source
order; every other pair is in the no-op list (1318-1326). -/
def castNeeded : MachineRep → MachineRep → Bool
  | ⟨false, .b8⟩, ⟨true, .b8⟩ => true
  | ⟨true, .b8⟩, ⟨false, .b8⟩ => true
  | ⟨false, .b16⟩, ⟨true, .b16⟩ => true
  | ⟨true, .b16⟩, ⟨false, .b16⟩ => true
  | ⟨false, .b32⟩, ⟨true, .b32⟩ => true
  | ⟨true, .b32⟩, ⟨false, .b32⟩ => true
  | ⟨false, .b64⟩, ⟨true, .b64⟩ => true
  | ⟨true, .b64⟩, ⟨false, .b64⟩ => true
  | ⟨false, .b16⟩, ⟨false, .b8⟩ => true
  | ⟨false, .b32⟩, ⟨false, .b8⟩ => true
  | ⟨false, .b32⟩, ⟨false, .b16⟩ => true
  | ⟨false, .b64⟩, ⟨false, .b8⟩ => true
  | ⟨false, .b64⟩, ⟨false, .b16⟩ => true
  | ⟨false, .b64⟩, ⟨false, .b32⟩ => true
  | ⟨true, .b16⟩, ⟨true, .b8⟩ => true
  | ⟨true, .b32⟩, ⟨true, .b8⟩ => true
  | ⟨true, .b32⟩, ⟨true, .b16⟩ => true
  | ⟨true, .b64⟩, ⟨true, .b8⟩ => true
  | ⟨true, .b64⟩, ⟨true, .b16⟩ => true
  | ⟨true, .b64⟩, ⟨true, .b32⟩ => true
  | ⟨false, .b16⟩, ⟨true, .b8⟩ => true
  | ⟨false, .b32⟩, ⟨true, .b8⟩ => true
  | ⟨false, .b32⟩, ⟨true, .b16⟩ => true
  | ⟨false, .b64⟩, ⟨true, .b8⟩ => true
  | ⟨false, .b64⟩, ⟨true, .b16⟩ => true
  | ⟨false, .b64⟩, ⟨true, .b32⟩ => true
  | ⟨true, .b16⟩, ⟨false, .b8⟩ => true
  | ⟨true, .b32⟩, ⟨false, .b8⟩ => true
  | ⟨true, .b32⟩, ⟨false, .b16⟩ => true
  | ⟨true, .b64⟩, ⟨false, .b8⟩ => true
  | ⟨true, .b64⟩, ⟨false, .b16⟩ => true
  | ⟨true, .b64⟩, ⟨false, .b32⟩ => true
  | ⟨true, .b8⟩, ⟨false, .b16⟩ => true
  | ⟨true, .b8⟩, ⟨false, .b32⟩ => true
  | ⟨true, .b8⟩, ⟨false, .b64⟩ => true
  | ⟨true, .b16⟩, ⟨false, .b32⟩ => true
  | ⟨true, .b16⟩, ⟨false, .b64⟩ => true
  | ⟨true, .b32⟩, ⟨false, .b64⟩ => true
  | _, _ => false

/-- `bitwise_cast` (src/numeric/core.rs:1262-1331). -/
def bitwiseCast (num : Int) (repIn : NumRep) (repOut : MachineRep) : Panicky Int :=
  match repIn with
  | .auto => .ok num
  | .concrete r0 => if castNeeded r0 repOut then bigintAs num r0 repOut else .ok num

/-- `EvalError` (src/numeric/core.rs:1036-1042). -/
inductive EvalError where
  | divideByZero
  | remainderNonPositive
  | ambiguous (a b : NumRep)
  | unknownVar (l : String)
  | badVariable
deriving DecidableEq, Repr

/-- outcome of an evaluation: value, `Err`, or a panic in `bigint_as!` -/
inductive Out (α : Type) where
  | ok (a : α)
  | err (e : EvalError)
  | panic
deriving DecidableEq, Repr

/-- `?` sequencing -/
def Out.bind {α β : Type} : Out α → (α → Out β) → Out β
  | .ok a, f => f a
  | .err e, _ => .err e
  | .panic, _ => .panic

/-- `Strict<Value>` (src/numeric/core.rs:1155-1160). -/
structure StrictValue where
  value : TypedConst
  isValid : Bool
deriving DecidableEq, Repr

/-- `StrictValue::new` (src/numeric/core.rs:1171-1174). -/
def StrictValue.new (c : TypedConst) : StrictValue := ⟨c, c.isRepresentable⟩

/-- `StrictValue::map` (src/numeric/core.rs:1184-1188). -/
def StrictValue.map (s : StrictValue) (f : TypedConst → Out TypedConst) : Out StrictValue :=
  (f s.value).bind fun v => .ok ⟨v, s.isValid && v.isRepresentable⟩

/-- `StrictValue::map2` (src/numeric/core.rs:1190-1198). -/
def StrictValue.map2 (s o : StrictValue) (f : TypedConst → TypedConst → Out TypedConst) : Out StrictValue :=
  (f s.value o.value).bind fun v => .ok ⟨v, s.isValid && o.isValid && v.isRepresentable⟩

/-- The closure passed to `map2` in `eval_strict` (src/numeric/core.rs:1349-1387), and the identical body
in `eval` (1456-1494). -/
def evalBinOp (op : BasicBinOp) (outRep : Option MachineRep) (l r : TypedConst) : Out TypedConst :=
  let raw : Out Int :=
    match op with
    | .add => .ok (l.val + r.val)
    | .sub => .ok (l.val - r.val)
    | .mul => .ok (l.val * r.val)
    | .div => if r.val = 0 then .err .divideByZero else .ok (l.val.tdiv r.val)
    | .rem => if r.val > 0 then .ok (l.val.tmod r.val) else .err .remainderNonPositive
  raw.bind fun raw =>
    match outRep with
    | some rep => .ok ⟨raw, .concrete rep⟩
    | none =>
      if l.rep = r.rep ∨ r.rep.isAuto then .ok ⟨raw, l.rep⟩
      else if l.rep.isAuto then .ok ⟨raw, r.rep⟩
      else .err (.ambiguous l.rep r.rep)

/-- The closure passed to `map` for unary operations (src/numeric/core.rs:1392-1421, 1498-1527). -/
def evalUnaryOp (op : BasicUnaryOp) (outRep : Option MachineRep) (c : TypedConst) : Out TypedConst :=
  let repOut := match outRep with | some rep => NumRep.concrete rep | none => c.rep
  match op with
  | .negate => .ok ⟨-c.val, repOut⟩
  | .absVal => .ok ⟨c.val.natAbs, repOut⟩
  | .intSucc => .ok ⟨c.val + 1, repOut⟩
  | .intPred => .ok ⟨c.val - 1, repOut⟩

/-- The closure passed to `map` for casts (src/numeric/core.rs:1423-1435, 1531-1543). -/
def evalCast (outRep : MachineRep) (bitwise : Bool) (c : TypedConst) : Out TypedConst :=
  if bitwise then
    match bitwiseCast c.val c.rep outRep with
    | .ok n => .ok ⟨n, .concrete outRep⟩
    | .panic => .panic
  else .ok ⟨c.val, .concrete outRep⟩

/-- `Expr::eval_strict` (src/numeric/core.rs:1336-1442).  `scope` is `lookup_var` followed by
`StrictValue::try_from` (core.rs:1436-1440, 1071-1111), modelled with the value type in Model/Value. -/
def Expr.evalStrict (scope : String → Out StrictValue) : Expr → Out StrictValue
  | .const c => .ok (StrictValue.new c)
  | .binOp op outRep l r =>
    (l.evalStrict scope).bind fun a =>
      (r.evalStrict scope).bind fun b => a.map2 b (evalBinOp op outRep)
  | .unaryOp op outRep e => (e.evalStrict scope).bind fun a => a.map (evalUnaryOp op outRep)
  | .cast outRep bw e => (e.evalStrict scope).bind fun a => a.map (evalCast outRep bw)
  | .numVar x => scope x

/-- `Expr::eval` (src/numeric/core.rs:1444-1551). -/
def Expr.eval (scope : String → Out StrictValue) : Expr → Out TypedConst
  | .const c => .ok c
  | .binOp op outRep l r =>
    (l.eval scope).bind fun a => (r.eval scope).bind fun b => evalBinOp op outRep a b
  | .unaryOp op outRep e => (e.eval scope).bind fun a => evalUnaryOp op outRep a
  | .cast outRep bw e => (e.eval scope).bind fun a => evalCast outRep bw a
  | .numVar x => (scope x).bind fun s => .ok s.value

/-- `VOID` scope (src/scope.rs:7-14). -/
def voidScope : String → Out StrictValue := fun l => .err (.unknownVar l)

end Num
end Doodle
