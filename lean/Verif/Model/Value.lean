import Verif.Model.Panicky
import Verif.Model.Bounds
import Verif.Model.SeqKind
import Verif.Model.NumCore

/-!
Model of `Value` and `Pattern` (/repo/src/decoder/value.rs, /repo/src/pattern.rs).

The five unsigned variants `U8`, `U16`, `U32`, `U64`, `Usize` of `Value` are one constructor `num`
indexed by the kind; the payload is in range by its type.  `Option(None)` / `Option(Some(_))` and
`Permit(Ok(_))` / `Permit(Err(None))` / `Permit(Err(Some(_)))` are separate constructors.
-/

namespace Doodle

open Num (BitWidth TypedConst MachineRep)

/-- the primitive unsigned integer types a `Value` can hold -/
inductive UKind where
  | fixed (w : BitWidth)
  | usize
deriving DecidableEq, Repr

/-- width in bits; `usize` is 64 bits wide -/
def UKind.bits : UKind → Nat
  | .fixed w => w.bits
  | .usize => 64

/-- number of values of the type -/
def UKind.card (k : UKind) : Nat := 2 ^ k.bits

theorem UKind.card_pos (k : UKind) : 0 < k.card := Nat.two_pow_pos _

instance (k : UKind) : NeZero k.card := ⟨Nat.pos_iff_ne_zero.mp k.card_pos⟩

theorem UKind.card_le (k : UKind) : k.card ≤ usizeCard := by
  cases k with
  | fixed w => cases w <;> decide
  | usize => decide

theorem usizeCard_pos : 0 < usizeCard := Nat.two_pow_pos _

/-- `enum Value` (src/decoder/value.rs:23-52). -/
inductive Value where
  | bool (b : Bool)
  | num (k : UKind) (n : Fin k.card)
  | char (c : Char)
  | numeric (c : TypedConst)
  | view (offset : Nat)
  | phantom
  | enumFromTo (start stop : Fin usizeCard)
  | optNone
  | optSome (v : Value)
  | tuple (vs : List Value)
  | record (fs : List (String × Value))
  | variant (label : String) (v : Value)
  | seq (s : SeqKind Value)
  | mapped (orig v : Value)
  | branch (n : Nat) (v : Value)
  | permitOk (v : Value)
  | permitErrNone
  | permitErr (v : Value)

/-- `enum Pattern` (src/pattern.rs:12-28); `lit` is `U8`, `U16`, `U32`, `U64`. -/
inductive Pattern where
  | binding (name : String)
  | wildcard
  | bool (b : Bool)
  | lit (w : BitWidth) (n : Fin (UKind.fixed w).card)
  | int (b : Bounds)
  | zConst (z : Int)
  | zRange (b : Num.Bounds)
  | char (c : Char)
  | tuple (ps : List Pattern)
  | variant (label : String) (p : Pattern)
  | seq (ps : List Pattern)
  | optNone
  | optSome (p : Pattern)

/-- `enum IntRel` (src/lib.rs:110-118). -/
inductive IntRel where
  | eq | ne | lt | gt | lte | gte
deriving DecidableEq, Repr

/-- `enum Arith` (src/lib.rs:120-133). -/
inductive Arith where
  | add | sub | mul | div | rem | bitAnd | bitOr | shl | shr | boolOr | boolAnd
deriving DecidableEq, Repr

/-- `enum UnaryOp` (src/lib.rs:135-143). -/
inductive UnaryOp where
  | boolNot | intSucc | intPred
deriving DecidableEq, Repr

namespace Value

/-- `Value::UNIT` (src/decoder/value.rs:335). -/
def unit : Value := .tuple []

/-- The value `n` of type `k`, or a panic if it does not fit: the overflow checks of `checked_*`
followed by `unwrap_or_else(|| panic!())`, and `try_from(..).unwrap()`. -/
def mkNum (k : UKind) (n : Nat) : Panicky Value :=
  if h : n < k.card then .ok (.num k ⟨n, h⟩) else .panic

/-- `Value::from(usize)` (src/decoder/value.rs:75-79), on a number that is a `usize`. -/
def ofUsize (n : Nat) : Value := .num .usize (Fin.ofNat _ n)

/-- `Value::U8`. -/
def u8 (b : UInt8) : Value := .num (.fixed .b8) ⟨b.toNat, b.toNat_lt⟩

/-- `Value::is_fallback` (src/decoder/value.rs:70-72). -/
def isFallback : Value → Bool
  | .permitErrNone => true
  | .permitErr _ => true
  | _ => false

/-- `Value::coerce_nominal_value` (src/decoder/value.rs:285-294). -/
def coerceNominal : Value → Value
  | .permitOk v => v.coerceNominal
  | .permitErr v => v.coerceNominal
  | .permitErrNone => .permitErrNone
  | .mapped _ v => v.coerceNominal
  | .branch _ v => v.coerceNominal
  | v => v

/-- `Value::coerce_mapped_value`, `extract_mapped_value` (src/decoder/value.rs:298-315). -/
def coerceMapped : Value → Value
  | .mapped _ v => v.coerceMapped
  | .branch _ v => v.coerceMapped
  | .permitOk v => v.coerceMapped
  | v => v

/-- `Value::tuple_proj` (src/decoder/value.rs:151-158). -/
def tupleProj (v : Value) (index : Nat) : Panicky Value :=
  match v with
  | .tuple vs => Panicky.unwrap vs[index]?
  | .permitErrNone => .ok .permitErrNone
  | .permitErr _ => .ok .permitErrNone
  | _ => .panic

/-- `Value::record_proj` (src/decoder/value.rs:160-170). -/
def recordProj (v : Value) (label : String) : Panicky Value :=
  match v with
  | .record fs => Panicky.unwrap ((fs.find? (fun f => label == f.1)).map (·.2))
  | .permitErrNone => .ok .permitErrNone
  | .permitErr _ => .ok .permitErrNone
  | _ => .panic

/-- the integer held by a machine-integer value (`BigInt::from(*n)`) -/
def intVal? : Value → Option Int
  | .num _ n => some (n.val : Int)
  | .numeric c => some c.val
  | _ => none

/-- The non-recursive patterns of `matches_inner` (src/decoder/value.rs:183-226): whether the value
itself satisfies the literal or range. -/
def matchesFlat (v : Value) : Pattern → Bool
  | .bool b0 => match v with | .bool b1 => b0 == b1 | _ => false
  | .lit w i0 =>
    match v with
    | .num k i1 => decide (k = .fixed w) && decide (i0.val = i1.val)
    | .numeric n => n.patMatches i0.val ⟨false, w⟩
    | _ => false
  | .int b =>
    match v with
    | .num _ n => b.contains n.val
    | .numeric n => n.fallsWithin b
    | _ => false
  | .zConst z => match v.intVal? with | some n => z == n | none => false
  | .zRange r => match v.intVal? with | some n => r.contains n | none => false
  | .char c0 => match v with | .char c1 => c0 == c1 | _ => false
  | _ => false

end Value

mutual
/-- `Value::matches_inner` (src/decoder/value.rs:172-263).  `acc` is the list of bindings pushed so far;
`none` is `false`, whose partially filled scope the caller discards. -/
def Pattern.matchesInner : Pattern → Value → List (String × Value) → Option (List (String × Value))
  | .binding name, v, acc => some (acc ++ [(name, v)])
  | .wildcard, _, acc => some acc
  | .tuple ps, .tuple vs, acc =>
    if ps.length = vs.length then Pattern.matchesAll ps vs acc else none
  | .seq ps, .seq vs, acc =>
    if ps.length = vs.len then Pattern.matchesAll ps vs.iter acc else none
  | .variant label0 p, .variant label1 v, acc =>
    if label0 = label1 then p.matchesInner v acc else none
  | .optNone, .optNone, acc => some acc
  | .optSome p, .optSome v, acc => p.matchesInner v acc
  | p, v, acc => if v.matchesFlat p then some acc else none

/-- The `for (p, v) in Iterator::zip(..)` loops (src/decoder/value.rs:229-233, 240-244). -/
def Pattern.matchesAll : List Pattern → List Value → List (String × Value) → Option (List (String × Value))
  | p :: ps, v :: vs, acc =>
    match p.matchesInner v acc with
    | some acc' => Pattern.matchesAll ps vs acc'
    | none => none
  | _, _, acc => some acc
end

mutual
/-- `Pattern::shadows` (src/pattern.rs:201-219). -/
def Pattern.shadows (name : String) : Pattern → Bool
  | .binding n => n == name
  | .tuple ps => Pattern.anyShadows name ps
  | .variant _ p => p.shadows name
  | .seq ps => Pattern.anyShadows name ps
  | .optSome p => p.shadows name
  | _ => false

/-- `ps.iter().any(|p| p.shadows(name))` -/
def Pattern.anyShadows (name : String) : List Pattern → Bool
  | [] => false
  | p :: ps => p.shadows name || Pattern.anyShadows name ps
end

namespace Value

/-- `Value::matches` (src/decoder/value.rs:272-281): the bindings of the new scope layer, in push order. -/
def matchesPat (v : Value) (p : Pattern) : Option (List (String × Value)) :=
  p.matchesInner v.coerceNominal []

/-- `Value::get_sequence` (src/decoder/value.rs:317-323) with `ValueSeq` (src/decoder/seq_kind.rs:19-22). -/
inductive ValueSeq where
  | vals (s : SeqKind Value)
  | range (a b : Fin usizeCard)

/-- `Value::get_sequence` (src/decoder/value.rs:317-323). -/
def getSequence : Value → Option ValueSeq
  | .seq s => some (.vals s)
  | .enumFromTo a b => some (.range a b)
  | _ => none

/-- `ValueSeq::len` (src/decoder/seq_kind.rs:25-30). -/
def ValueSeq.len : ValueSeq → Nat
  | .vals s => s.len
  | .range a b => b.val - a.val

/-- `ValueSeq::is_empty` (src/decoder/seq_kind.rs:32-37). -/
def ValueSeq.isEmpty : ValueSeq → Bool
  | .vals s => s.isEmpty
  | .range a b => !decide (a.val < b.val)

/-- `ValueSeq::into_iter` (src/decoder/seq_kind.rs:62-93): the yielded items. -/
def ValueSeq.items : ValueSeq → List Value
  | .vals s => s.iter
  | .range a b => (List.range' a.val (b.val - a.val)).map ofUsize

/-- `ValueSeq::append` (src/decoder/seq_kind.rs:39-47). -/
def ValueSeq.append : ValueSeq → ValueSeq → Panicky (SeqKind Value)
  | .vals a, .vals b => .ok (a.append b)
  | _, _ => .panic

/-- `Value::unwrap_usize` (src/decoder/value.rs:356-366). -/
def unwrapUsize : Value → Panicky Nat
  | .num _ n => .ok n.val
  | .numeric c => Panicky.unwrap c.asUsize
  | _ => .panic

/-- `Value::get_as_u8` (src/decoder/value.rs:369-378). -/
def getAsU8 : Value → Panicky UInt8
  | .num (.fixed .b8) n => .ok (UInt8.ofNat n.val)
  | .numeric c => Panicky.unwrap ((c.getAsUnsized .b8).map UInt8.ofNat)
  | _ => .panic

/-- `Value::unwrap_tuple` (src/decoder/value.rs:380-385). -/
def unwrapTuple : Value → Panicky (List Value)
  | .tuple vs => .ok vs
  | _ => .panic

/-- `Value::unwrap_bool` (src/decoder/value.rs:387-392). -/
def unwrapBool : Value → Panicky Bool
  | .bool b => .ok b
  | _ => .panic

/-- `__rel` (src/decoder/value.rs:395-407) and `TypedConst::rel` (src/numeric/core.rs:639-651). -/
def rel (r : IntRel) (left right : Int) : Bool :=
  match r with
  | .eq => left == right
  | .ne => left != right
  | .gt => decide (left > right)
  | .gte => decide (left ≥ right)
  | .lt => decide (left < right)
  | .lte => decide (left ≤ right)

/-- `__arith` (src/decoder/value.rs:409-445) on two integers of type `k`.  Shifting by at least the
width panics (debug build); the shift amount is first truncated by `as u32`. -/
def arithNum (op : Arith) (k : UKind) (l r : Nat) : Panicky Value :=
  match op with
  | .add => mkNum k (l + r)
  | .sub => if r ≤ l then mkNum k (l - r) else .panic
  | .mul => mkNum k (l * r)
  | .div => if r = 0 then .panic else mkNum k (l / r)
  | .rem => if r = 0 then .panic else mkNum k (l % r)
  | .shl => if r % u32Card < k.bits then mkNum k ((l <<< (r % u32Card)) % k.card) else .panic
  | .shr => if r % u32Card < k.bits then mkNum k (l >>> (r % u32Card)) else .panic
  | .bitOr => mkNum k (l ||| r)
  | .bitAnd => mkNum k (l &&& r)
  | .boolOr => .panic
  | .boolAnd => .panic

/-- `Value::int_rel` (src/decoder/value.rs:471-539). -/
def intRel (r : IntRel) (left right : Value) : Panicky Value :=
  match left, right with
  | .num k l, .num k' x => if k = k' then .ok (.bool (rel r l.val x.val)) else .panic
  | .numeric l, .numeric x => .ok (.bool (rel r l.val x.val))
  | .numeric c, .num (.fixed w) x =>
    match c.getAsUnsized w with
    | some l => .ok (.bool (rel r l x.val))
    | none => .panic
  | .num (.fixed w) l, .numeric c =>
    match c.getAsUnsized w with
    | some x => .ok (.bool (rel r l.val x))
    | none => .panic
  | _, _ => .panic

/-- `Value::arith` (src/decoder/value.rs:541-573). -/
def arith (op : Arith) (left right : Value) : Panicky Value :=
  match op with
  | .boolOr => match left, right with
    | .bool l, .bool r => .ok (.bool (l || r))
    | _, _ => .panic
  | .boolAnd => match left, right with
    | .bool l, .bool r => .ok (.bool (l && r))
    | _, _ => .panic
  | op => match left, right with
    | .num k l, .num k' r => if k = k' then arithNum op k l.val r.val else .panic
    | _, _ => .panic

/-- `Value::unary` with `__unary` (src/decoder/value.rs:447-468, 575-593). -/
def unary (op : UnaryOp) (v : Value) : Panicky Value :=
  match op with
  | .boolNot => match v with
    | .bool b => .ok (.bool (!b))
    | _ => .panic
  | .intSucc => match v with
    | .num k i => mkNum k (i.val + 1)
    | _ => .panic
  | .intPred => match v with
    | .num k i => if 1 ≤ i.val then mkNum k (i.val - 1) else .panic
    | _ => .panic

/-- `Value::compare_as_key` (src/decoder/search.rs:20-28). -/
def compareAsKey : Value → Value → Panicky Ordering
  | .num (.fixed w) a, .num (.fixed w') b => if w = w' then .ok (compare a.val b.val) else .panic
  | _, _ => .panic

/-- `Value::eq_key` (src/decoder/search.rs:30-38). -/
def eqKey : Value → Value → Panicky Bool
  | .num (.fixed w) a, .num (.fixed w') b => if w = w' then .ok (a.val == b.val) else .panic
  | _, _ => .panic

/-- `TryFrom<&Value> for StrictValue` (src/numeric/core.rs:1074-1112); `none` is the error. -/
def toStrict : Value → Option Num.StrictValue
  | .permitOk v => v.toStrict
  | .permitErr v => v.toStrict
  | .mapped _ v => v.toStrict
  | .branch _ v => v.toStrict
  | .numeric c => some (Num.StrictValue.new c)
  | .num (.fixed w) i => some ⟨⟨i.val, .concrete ⟨false, w⟩⟩, true⟩
  | .num .usize i => some (Num.StrictValue.new ⟨i.val, .auto⟩)
  | _ => none

end Value
end Doodle
