import Verif.Model.Decoder

/-!
Model of location-tracking decoding (/repo/src/loc_decoder.rs): `ParseLoc`, `ParsedValue`, evaluation of
expressions over located values, `Decoder::parse_with_loc`, `Program::run_with_loc`.

* `ParsedValue::Flat` can hold any `Value`, but the code only ever stores values there that contain no
  other value (`from_evaluated`, and the callers of `new_flat`); `Ground` lists them.
* `SeqKind::Dup` never occurs in a `ParsedValue`: `new_seq` and `from_evaluated` build `Strict`, and
  `sub_seq` / `append` of `Strict` are `Strict`.  A sequence is the list of its elements.
* Sums of lengths (`join`, `len * kind.size()`) are not overflow-checked here; the subtractions
  `input.offset - start_offset` are.
* Error values keep kind and offsets, as in `Verif.Model.Decoder`.
-/

namespace Doodle

open Num (BitWidth TypedConst)

/-- `enum ParseLoc` (src/loc_decoder.rs:23-31). -/
inductive ParseLoc where
  | inBuffer (offset length : Nat)
  | synthesized
deriving DecidableEq, Repr

namespace ParseLoc

/-- `ParseLoc::join` (src/loc_decoder.rs:97-111). -/
def join (self other : ParseLoc) : ParseLoc :=
  match other with
  | .synthesized => self
  | .inBuffer offset length =>
    match self with
    | .synthesized => other
    | .inBuffer offset0 length0 => .inBuffer (min offset0 offset) (length0 + length)

/-- `ParseLoc::accum` (src/loc_decoder.rs:122-128). -/
def accum (ls : List ParseLoc) : ParseLoc := ls.foldl join .synthesized

end ParseLoc

/-- the values stored in `ParsedValue::Flat` -/
inductive Ground where
  | bool (b : Bool)
  | num (k : UKind) (n : Fin k.card)
  | char (c : Char)
  | numeric (c : TypedConst)
  | view (offset : Nat)
  | phantom
  | enumFromTo (start stop : Fin usizeCard)

/-- the stored `Value` -/
def Ground.toValue : Ground → Value
  | .bool b => .bool b
  | .num k n => .num k n
  | .char c => .char c
  | .numeric c => .numeric c
  | .view o => .view o
  | .phantom => .phantom
  | .enumFromTo a b => .enumFromTo a b

/-- `enum ParsedValue` (src/loc_decoder.rs:148-160). -/
inductive ParsedValue where
  | flat (g : Ground) (loc : ParseLoc)
  | tuple (vs : List ParsedValue) (loc : ParseLoc)
  | record (fs : List (String × ParsedValue)) (loc : ParseLoc)
  | variant (label : String) (v : ParsedValue)
  | seq (vs : List ParsedValue) (loc : ParseLoc)
  | mapped (orig image : ParsedValue)
  | branch (n : Nat) (v : ParsedValue)
  | permitOk (v : ParsedValue)
  | permitErrNone
  | permitErr (v : ParsedValue)
  | optNone
  | optSome (v : ParsedValue)

namespace ParsedValue

/-- `ParsedValue::get_loc` (src/loc_decoder.rs:173-189). -/
def getLoc : ParsedValue → ParseLoc
  | .flat _ loc => loc
  | .tuple _ loc => loc
  | .record _ loc => loc
  | .seq _ loc => loc
  | .variant _ v => v.getLoc
  | .mapped orig _ => orig.getLoc
  | .branch _ v => v.getLoc
  | .optSome v => v.getLoc
  | .optNone => .synthesized
  | .permitOk v => v.getLoc
  | .permitErr v => v.getLoc
  | .permitErrNone => .synthesized

/-- `ParsedValue::unit_spanning`, `unit_at` (src/loc_decoder.rs:192-202). -/
def unitSpanning (offset length : Nat) : ParsedValue := .tuple [] (.inBuffer offset length)

/-- `ParsedValue::new_flat` (src/loc_decoder.rs:215-220). -/
def newFlat (g : Ground) (offset length : Nat) : ParsedValue := .flat g (.inBuffer offset length)

/-- `ParsedValue::new_tuple` (src/loc_decoder.rs:226-231). -/
def newTuple (vs : List ParsedValue) (offset length : Nat) : ParsedValue := .tuple vs (.inBuffer offset length)

/-- `ParsedValue::new_seq` (src/loc_decoder.rs:240-245). -/
def newSeq (vs : List ParsedValue) (offset length : Nat) : ParsedValue := .seq vs (.inBuffer offset length)

/-- `ParsedValue::translate` (src/loc_decoder.rs:252-267). -/
def translate (new : ParseLoc) : ParsedValue → ParsedValue
  | .flat g _ => .flat g new
  | .tuple vs _ => .tuple vs new
  | .record fs _ => .record fs new
  | .seq vs _ => .seq vs new
  | .variant l v => .variant l (v.translate new)
  | .branch n v => .branch n (v.translate new)
  | .mapped orig v => .mapped orig (v.translate new)
  | .optSome v => .optSome (v.translate new)
  | .optNone => .optNone
  | .permitOk v => .permitOk (v.translate new)
  | .permitErr v => .permitErr (v.translate new)
  | .permitErrNone => .permitErrNone

mutual
/-- `From<ParsedValue> for Value`, `clone_into_value` (src/loc_decoder.rs:330-364, 330-364): the value
without its locations. -/
def erase : ParsedValue → Value
  | .flat g _ => g.toValue
  | .tuple vs _ => .tuple (eraseList vs)
  | .seq vs _ => .seq (.strict (eraseList vs))
  | .record fs _ => .record (eraseFields fs)
  | .variant l v => .variant l v.erase
  | .mapped a b => .mapped a.erase b.erase
  | .branch n v => .branch n v.erase
  | .optNone => .optNone
  | .optSome v => .optSome v.erase
  | .permitOk v => .permitOk v.erase
  | .permitErrNone => .permitErrNone
  | .permitErr v => .permitErr v.erase

/-- the elements of a tuple or sequence -/
def eraseList : List ParsedValue → List Value
  | [] => []
  | v :: vs => v.erase :: eraseList vs

/-- the fields of a record -/
def eraseFields : List (String × ParsedValue) → List (String × Value)
  | [] => []
  | (l, v) :: fs => (l, v.erase) :: eraseFields fs
end

mutual
/-- `ParsedValue::from_evaluated` (src/loc_decoder.rs:491-560). -/
def fromEvaluated : Value → ParsedValue
  | .bool b => .flat (.bool b) .synthesized
  | .num k n => .flat (.num k n) .synthesized
  | .char c => .flat (.char c) .synthesized
  | .numeric c => .flat (.numeric c) .synthesized
  | .view o => .flat (.view o) .synthesized
  | .phantom => .flat .phantom .synthesized
  | .enumFromTo a b => .flat (.enumFromTo a b) .synthesized
  | .tuple vs => .tuple (fromEvaluatedList vs) .synthesized
  | .record fs => .record (fromEvaluatedFields fs) .synthesized
  | .seq s => .seq (fromEvaluatedSeq s) .synthesized
  | .variant l v => .variant l (fromEvaluated v)
  | .mapped a b => .mapped (fromEvaluated a) (fromEvaluated b)
  | .branch n v => .branch n (fromEvaluated v)
  | .optNone => .optNone
  | .optSome v => .optSome (fromEvaluated v)
  | .permitOk v => .permitOk (fromEvaluated v)
  | .permitErrNone => .permitErrNone
  | .permitErr v => .permitErr (fromEvaluated v)

/-- `for v in vs.into_iter() { p_vs.push(from_evaluated(v)) }` (src/loc_decoder.rs:510-513). -/
def fromEvaluatedList : List Value → List ParsedValue
  | [] => []
  | v :: vs => fromEvaluated v :: fromEvaluatedList vs

/-- the fields of a record (src/loc_decoder.rs:521-524) -/
def fromEvaluatedFields : List (String × Value) → List (String × ParsedValue)
  | [] => []
  | (l, v) :: fs => (l, fromEvaluated v) :: fromEvaluatedFields fs

/-- the elements of a sequence (src/loc_decoder.rs:531-534): a repeated element is written out. -/
def fromEvaluatedSeq : SeqKind Value → List ParsedValue
  | .strict vs => fromEvaluatedList vs
  | .dup n v => List.replicate n (fromEvaluated v)
end

/-- `ParsedValue::inherit` (src/loc_decoder.rs:251-255). -/
def inherit (orig : ParsedValue) (v : Value) : ParsedValue := (fromEvaluated v).translate orig.getLoc

/-- `ParsedValue::coerce_mapped_value` (src/loc_decoder.rs:482-489). -/
def coerceMapped : ParsedValue → ParsedValue
  | .mapped _ v => v.coerceMapped
  | .branch _ v => v.coerceMapped
  | .permitOk v => v.coerceMapped
  | v => v

/-- `ParsedValue::tuple_proj` (src/loc_decoder.rs:466-471), on a coerced value. -/
def tupleProj (v : ParsedValue) (index : Nat) : Panicky ParsedValue :=
  match v with
  | .tuple vs _ => Panicky.unwrap vs[index]?
  | _ => .panic

/-- `ParsedValue::record_proj` (src/loc_decoder.rs:314-324). -/
def recordProj (v : ParsedValue) (label : String) : Panicky ParsedValue :=
  match v with
  | .record fs _ => Panicky.unwrap ((fs.find? (fun f => label == f.1)).map (·.2))
  | _ => .panic

/-- `ParsedValue::collect_fields` (src/loc_decoder.rs:473-480). -/
def collectFields (fs : List (String × ParsedValue)) : Panicky ParsedValue :=
  match fs with
  | [] => .panic
  | _ :: _ => .ok (.record fs (.accum (fs.map fun f => f.2.getLoc)))

/-- The non-recursive patterns of `matches_inner` (src/loc_decoder.rs:373-396, 434-462): a literal or an
interval of machine integers does not accept a `Value::Numeric`. -/
def matchesFlat (v : ParsedValue) (p : Pattern) : Bool :=
  match v with
  | .flat g _ =>
    match p, g with
    | .bool b0, .bool b1 => b0 == b1
    | .lit w i0, .num k i1 => decide (k = .fixed w) && decide (i0.val = i1.val)
    | .int b, .num _ n => b.contains n.val
    | .zConst z, .num _ n => z == (n.val : Int)
    | .zConst z, .numeric c => z == c.val
    | .zRange r, .num _ n => r.contains (n.val : Int)
    | .zRange r, .numeric c => r.contains c.val
    | .char c0, .char c1 => c0 == c1
    | _, _ => false
  | _ => false

end ParsedValue

mutual
/-- `ParsedValue::matches_inner` (src/loc_decoder.rs:366-464); cf. `Pattern.matchesInner`. -/
def Pattern.matchesLoc : Pattern → ParsedValue → List (String × ParsedValue) →
    Option (List (String × ParsedValue))
  | .binding name, v, acc => some (acc ++ [(name, v)])
  | .wildcard, _, acc => some acc
  | .tuple ps, .tuple vs _, acc =>
    if ps.length = vs.length then Pattern.matchesAllLoc ps vs acc else none
  | .seq ps, .seq vs _, acc =>
    if ps.length = vs.length then Pattern.matchesAllLoc ps vs acc else none
  | .variant label0 p, .variant label1 v, acc =>
    if label0 = label1 then p.matchesLoc v acc else none
  | .optNone, .optNone, acc => some acc
  | .optSome p, .optSome v, acc => p.matchesLoc v acc
  | p, v, acc => if v.matchesFlat p then some acc else none

/-- The `for (p, v) in Iterator::zip(..)` loops (src/loc_decoder.rs:399-404, 410-415). -/
def Pattern.matchesAllLoc : List Pattern → List ParsedValue → List (String × ParsedValue) →
    Option (List (String × ParsedValue))
  | p :: ps, v :: vs, acc =>
    match p.matchesLoc v acc with
    | some acc' => Pattern.matchesAllLoc ps vs acc'
    | none => none
  | _, _, acc => some acc
end

namespace ParsedValue

/-- `ParsedValue::matches` (src/loc_decoder.rs:579-584): strips `coerce_mapped_value` wrappers only. -/
def matchesPat (v : ParsedValue) (p : Pattern) : Option (List (String × ParsedValue)) :=
  p.matchesLoc v.coerceMapped []

/-- `From<usize> for ParsedValue` (src/loc_decoder.rs:162-169). -/
def ofUsize (n : Nat) : ParsedValue := .flat (.num .usize (Fin.ofNat _ n)) .synthesized

/-- `ValueSeq<ParsedValue>` (src/decoder/seq_kind.rs:19-22). -/
inductive LocSeq where
  | vals (vs : List ParsedValue)
  | range (a b : Fin usizeCard)

/-- `ParsedValue::get_sequence` (src/loc_decoder.rs:568-577). -/
def getSequence : ParsedValue → Option LocSeq
  | .seq vs _ => some (.vals vs)
  | .flat (.enumFromTo a b) _ => some (.range a b)
  | _ => none

/-- `ValueSeq::len` (src/decoder/seq_kind.rs:25-30). -/
def LocSeq.len : LocSeq → Nat
  | .vals vs => vs.length
  | .range a b => b.val - a.val

/-- `ValueSeq::is_empty` (src/decoder/seq_kind.rs:32-37). -/
def LocSeq.isEmpty : LocSeq → Bool
  | .vals vs => vs.isEmpty
  | .range a b => !decide (a.val < b.val)

/-- `ValueSeq::into_iter` (src/decoder/seq_kind.rs:62-93): the yielded items. -/
def LocSeq.items : LocSeq → List ParsedValue
  | .vals vs => vs
  | .range a b => (List.range' a.val (b.val - a.val)).map ofUsize

/-- `ValueSeq::append` (src/decoder/seq_kind.rs:39-47). -/
def LocSeq.append : LocSeq → LocSeq → Panicky (List ParsedValue)
  | .vals a, .vals b => .ok (a ++ b)
  | _, _ => .panic

/-- `TryFrom<&ParsedValue> for StrictValue` (src/numeric/core.rs:1114-1134). -/
def toStrict : ParsedValue → Option Num.StrictValue
  | .flat g _ => g.toValue.toStrict
  | .mapped _ v => v.toStrict
  | .branch _ v => v.toStrict
  | .permitOk v => v.toStrict
  | .permitErr v => v.toStrict
  | _ => none

end ParsedValue

/-- `enum ViewOrParsedValue` (src/loc_decoder.rs:1104-1108). -/
inductive LocEntry where
  | view (c : ReadCtxt)
  | value (v : ParsedValue)

/-- `enum LocScope` (src/loc_decoder.rs:1095-1143). -/
inductive LocScope (δ : Type) where
  | empty
  | multi (entries : List (String × LocEntry)) (parent : LocScope δ)
  | single (name : String) (v : ParsedValue) (parent : LocScope δ)
  | decoder (name : String) (d : δ) (parent : LocScope δ)
  | view (name : String) (c : ReadCtxt) (parent : LocScope δ)

namespace LocScope
variable {δ : Type}

/-- The loop of `LocMultiScope::get_value_by_name` (src/loc_decoder.rs:1218-1230), reversed entries. -/
def findValue (name : String) : List (String × LocEntry) → Option ParsedValue
  | [] => none
  | (n, vv) :: rest =>
    if n = name then
      match vv with
      | .value v => some v
      | .view _ => findValue name rest
    else findValue name rest

/-- The loop of `LocMultiScope::get_view_by_name` (src/loc_decoder.rs:1203-1215), reversed entries. -/
def findView (name : String) : List (String × LocEntry) → Option ReadCtxt
  | [] => none
  | (n, vv) :: rest =>
    if n = name then
      match vv with
      | .view c => some c
      | .value _ => findView name rest
    else findView name rest

/-- `LocScope::get_value_by_name` (src/loc_decoder.rs:1146-1154, 1218-1232, 1263-1269). -/
def getValue (name : String) : LocScope δ → Option ParsedValue
  | .empty => none
  | .multi entries parent =>
    match findValue name entries.reverse with
    | some v => some v
    | none => parent.getValue name
  | .single n v parent => if n = name then some v else parent.getValue name
  | .decoder _ _ parent => parent.getValue name
  | .view _ _ parent => parent.getValue name

/-- `LocScope::get_decoder_by_name` (src/loc_decoder.rs:1156-1164, 1289-1295). -/
def getDecoder (name : String) : LocScope δ → Option δ
  | .empty => none
  | .multi _ parent => parent.getDecoder name
  | .single _ _ parent => parent.getDecoder name
  | .decoder n d parent => if n = name then some d else parent.getDecoder name
  | .view _ _ parent => parent.getDecoder name

/-- `LocScope::get_view_by_name` (src/loc_decoder.rs:1166-1174, 1203-1216, 1311-1317). -/
def getView (name : String) : LocScope δ → Option ReadCtxt
  | .empty => none
  | .multi entries parent =>
    match findView name entries.reverse with
    | some c => some c
    | none => parent.getView name
  | .single _ _ parent => parent.getView name
  | .decoder _ _ parent => parent.getView name
  | .view n c parent => if n = name then some c else parent.getView name

/-- The child scope that `ParsedValue::matches` returns (src/loc_decoder.rs:579-584). -/
def withBindings (parent : LocScope δ) (bs : List (String × ParsedValue)) : LocScope δ :=
  .multi (bs.map fun b => (b.1, .value b.2)) parent

/-- `lookup_var` (src/scope.rs:33-40) followed by `StrictValue::try_from`. -/
def numLookup (s : LocScope δ) (name : String) : Num.Out Num.StrictValue :=
  match s.getValue name with
  | none => .err (.unknownVar name)
  | some v =>
    match v.toStrict with
    | some sv => .ok sv
    | none => .err .badVariable

end LocScope

namespace LocExpr

/-- the result of an operation on values, as a located value: `ParsedValue::from_evaluated(..)` -/
def lift (x : Panicky Value) : Panicky ParsedValue := do
  let v ← x
  .ok (.fromEvaluated v)

/-- conversion of `AsChar` (src/loc_decoder.rs:786-802): no case for `Usize`. -/
def castChar : Value → Panicky Value
  | .num (.fixed _) n => if n.val < u32Card then .ok (.char (Expr.charOfU32 n.val)) else .panic
  | _ => .panic

/-- `SeqLength` (src/loc_decoder.rs:803-814). -/
def lengthOf (v : ParsedValue) : Panicky ParsedValue :=
  match v.getSequence with
  | some s => lift (Value.mkNum (.fixed .b32) (s.len % u32Card))
  | none => .panic

/-- `SeqIx` (src/loc_decoder.rs:815-830). -/
def indexOf (v : ParsedValue) (ix : Nat) : Panicky ParsedValue :=
  match v.getSequence with
  | some (.vals vs) => Panicky.unwrap vs[ix]?
  | some (.range a b) =>
    if a.val + ix < b.val then .ok (.fromEvaluated (Value.ofUsize (a.val + ix))) else .panic
  | none => .panic

/-- `SubSeq` (src/loc_decoder.rs:831-851). -/
def subSeqOf (v : ParsedValue) (start length : Nat) : Panicky ParsedValue :=
  match v.getSequence with
  | some (.vals vs) =>
    if start ≤ vs.length then
      let tmp := vs.drop start
      if length ≤ tmp.length then .ok (.seq (tmp.take length) .synthesized) else .panic
    else .panic
  | some (.range a b) => do
    let r ← subRange (a.val, b.val) start length
    let x ← Expr.toUsize r.1
    let y ← Expr.toUsize r.2
    .ok (.fromEvaluated (.enumFromTo x y))
  | none => .panic

/-- `SubSeqInflate` (src/loc_decoder.rs:852-892). -/
def inflateOf (v : ParsedValue) (start length : Nat) : Panicky ParsedValue :=
  match v.getSequence with
  | some (.vals vs) => do
    let r ← Prelude.inflateSeq (.strict vs) start length
    .ok (.seq r .synthesized)
  | some (.range a b) => do
    let r ← Prelude.inflateRange ParsedValue.ofUsize a.val b.val start length
    .ok (.seq r .synthesized)
  | none => .panic

/-- `Append` (src/loc_decoder.rs:893-918). -/
def appendOf (v0 v1 : ParsedValue) : Panicky ParsedValue :=
  match v0.getSequence with
  | some s0 =>
    match v1.getSequence with
    | some s1 =>
      if s0.isEmpty then .ok v1
      else if s1.isEmpty then .ok v0
      else do
        let s ← s0.append s1
        .ok (.seq s .synthesized)
    | none => .panic
  | none => .panic

/-- The loop of `FlatMap` (src/loc_decoder.rs:926-933): the lambda must yield a `Value::Seq`. -/
def flatMapLoop (f : ParsedValue → Panicky Value) : List Value → List ParsedValue → Panicky (List Value)
  | vs, [] => .ok vs
  | vs, v :: rest => do
    let r ← f v
    match r with
    | .seq s => flatMapLoop f (vs ++ s.iter) rest
    | _ => .panic

/-- The loop of `FlatMapAccum` (src/loc_decoder.rs:947-963). -/
def flatMapAccumLoop (f : ParsedValue → Panicky Value) :
    Value → List Value → List ParsedValue → Panicky (List Value)
  | _, vs, [] => .ok vs
  | accum, vs, v :: rest => do
    let r ← f (.fromEvaluated (.tuple [accum, v.erase]))
    match r with
    | .tuple [accum', .seq vn] => flatMapAccumLoop f accum' (vs ++ vn.iter) rest
    | _ => .panic

/-- The loop of `LeftFold` (src/loc_decoder.rs:975-984). -/
def leftFoldLoop (f : ParsedValue → Panicky Value) : Value → List ParsedValue → Panicky Value
  | accum, [] => .ok accum
  | accum, v :: rest => do
    let a ← f (.fromEvaluated (.tuple [accum, v.erase]))
    leftFoldLoop f a rest

/-- The loop of `FlatMapList` (src/loc_decoder.rs:1026-1044). -/
def flatMapListLoop (f : ParsedValue → Panicky Value) : List Value → List Value → Panicky (List Value)
  | vs, [] => .ok vs
  | vs, v :: rest => do
    let r ← f (.fromEvaluated (.tuple [.seq (.strict vs), v]))
    match r with
    | .seq vn => flatMapListLoop f (vs ++ vn.iter) rest
    | _ => .panic

/-- `FindByKey` on a sequence (src/loc_decoder.rs:990-1022). -/
def findByKeyOf (sorted : Bool) (f : ParsedValue → Panicky Value) (query : Value) (values : List ParsedValue) :
    Panicky ParsedValue := do
  let ix ←
    if sorted then
      findIndexByKeySorted (fun k => query.compareAsKey k)
        (fun i => do let v ← Panicky.unwrap values[i]?; f v) values.length
    else findIndexByKeyUnsorted (fun k => query.eqKey k) f values 0
  match ix with
  | some i => do
    let v ← Panicky.unwrap values[i]?
    .ok (.optSome v)
  | none => .ok (.fromEvaluated .optNone)

/-- `.get_sequence()` where the other case panics -/
def needItems (v : ParsedValue) : Panicky (List ParsedValue) :=
  match v.getSequence with
  | some s => .ok s.items
  | none => .panic

/-- `Some(ValueSeq::ValueSeq(values))` of `FindByKey` (src/loc_decoder.rs:993, 1019-1022) -/
def needVals (v : ParsedValue) : Panicky (List ParsedValue) :=
  match v.getSequence with
  | some (.vals vs) => .ok vs
  | _ => .panic

end LocExpr

mutual
variable {δ : Type}

/-- `Expr::eval_with_loc` (src/loc_decoder.rs:587-1061).  `eval_value_with_loc` (1063-1067) is
`eval_with_loc`, `coerce_mapped_value`, `clone_into_value`. -/
def Expr.evalLoc : Expr → LocScope δ → Panicky ParsedValue
  | .var name, s => Panicky.unwrap (s.getValue name)
  | .bool b, _ => .ok (.fromEvaluated (.bool b))
  | .lit w n, _ => .ok (.fromEvaluated (.num (.fixed w) n))
  | .numeric n, s => LocExpr.lift (Expr.numericResult (n.eval s.numLookup))
  | .tuple es, s => do
    let vs ← Expr.evalValuesLoc es s
    .ok (.fromEvaluated (.tuple vs))
  | .tupleProj head index, s => do
    let v ← head.evalLoc s
    v.coerceMapped.tupleProj index
  | .record fs, s => do
    let vs ← Expr.evalFieldsLoc fs s
    ParsedValue.collectFields vs
  | .recordProj head label, s => do
    let v ← head.evalLoc s
    v.coerceMapped.recordProj label
  | .variant label e, s => do
    let v ← e.evalLoc s
    .ok (.fromEvaluated (.variant label v.coerceMapped.erase))
  | .seq es, s => do
    let vs ← Expr.evalValuesLoc es s
    .ok (.fromEvaluated (.seq (.strict vs)))
  | .match_ head branches, s => do
    let v ← head.evalLoc s
    Expr.evalBranchesLoc branches s v
  | .destructure head pat body, s => do
    let v ← head.evalLoc s
    match v.matchesPat pat with
    | some bs => do
      let r ← body.evalLoc (s.withBindings bs)
      .ok (.fromEvaluated r.coerceMapped.erase)
    | none => .panic
  | .lambda _ _, _ => .panic
  | .intRel r x y, s => do
    let l ← x.evalLoc s
    let v ← y.evalLoc s
    LocExpr.lift (Value.intRel r l.coerceMapped.erase v.coerceMapped.erase)
  | .arith op x y, s => do
    let l ← x.evalLoc s
    let v ← y.evalLoc s
    LocExpr.lift (Value.arith op l.coerceMapped.erase v.coerceMapped.erase)
  | .unary op x, s => do
    let v ← x.evalLoc s
    LocExpr.lift (Value.unary op v.coerceMapped.erase)
  | .asNum w x, s => do
    let v ← x.evalLoc s
    LocExpr.lift (Expr.castTo w v.coerceMapped.erase)
  | .asChar x, s => do
    let v ← x.evalLoc s
    LocExpr.lift (LocExpr.castChar v.coerceMapped.erase)
  | .fromBytes w be x, s => do
    let v ← x.evalLoc s
    LocExpr.lift (Expr.wordOf w be v.coerceMapped.erase)
  | .seqLength x, s => do
    let v ← x.evalLoc s
    LocExpr.lengthOf v.coerceMapped
  | .seqIx x index, s => do
    let v ← x.evalLoc s
    let i ← index.evalLoc s
    let ix ← i.coerceMapped.erase.unwrapUsize
    LocExpr.indexOf v.coerceMapped ix
  | .subSeq x start length, s => do
    let v ← x.evalLoc s
    let a ← start.evalLoc s
    let a ← a.coerceMapped.erase.unwrapUsize
    let n ← length.evalLoc s
    let n ← n.coerceMapped.erase.unwrapUsize
    LocExpr.subSeqOf v.coerceMapped a n
  | .subSeqInflate x start length, s => do
    let v ← x.evalLoc s
    let a ← start.evalLoc s
    let a ← a.coerceMapped.erase.unwrapUsize
    let n ← length.evalLoc s
    let n ← n.coerceMapped.erase.unwrapUsize
    LocExpr.inflateOf v.coerceMapped a n
  | .append x y, s => do
    let v0 ← x.evalLoc s
    let v1 ← y.evalLoc s
    LocExpr.appendOf v0.coerceMapped v1.coerceMapped
  | .flatMap f x, s => do
    let v ← x.evalLoc s
    let vs ← LocExpr.needItems v.coerceMapped
    let r ← LocExpr.flatMapLoop (fun a => f.evalLambdaLoc s a) [] vs
    .ok (.fromEvaluated (.seq (.strict r)))
  | .flatMapAccum f accum _ x, s => do
    let v ← x.evalLoc s
    let vs ← LocExpr.needItems v.coerceMapped
    let a ← accum.evalLoc s
    let r ← LocExpr.flatMapAccumLoop (fun a => f.evalLambdaLoc s a) a.coerceMapped.erase [] vs
    .ok (.fromEvaluated (.seq (.strict r)))
  | .leftFold f accum _ x, s => do
    let v ← x.evalLoc s
    let vs ← LocExpr.needItems v.coerceMapped
    let a ← accum.evalLoc s
    LocExpr.lift (LocExpr.leftFoldLoop (fun a => f.evalLambdaLoc s a) a.coerceMapped.erase vs)
  | .findByKey sorted f query x, s => do
    let v ← x.evalLoc s
    let vs ← LocExpr.needVals v.coerceMapped
    let q ← query.evalLoc s
    LocExpr.findByKeyOf sorted (fun a => f.evalLambdaLoc s a) q.coerceMapped.erase vs
  | .flatMapList f _ x, s => do
    let v ← x.evalLoc s
    let vs ← Expr.needSeq v.coerceMapped.erase
    let r ← LocExpr.flatMapListLoop (fun a => f.evalLambdaLoc s a) [] vs.iter
    .ok (.fromEvaluated (.seq (.strict r)))
  | .dup count x, s => do
    let c ← count.evalLoc s
    let c ← c.coerceMapped.erase.unwrapUsize
    let v ← x.evalLoc s
    .ok (.fromEvaluated (.seq (.dup c v.coerceMapped.erase)))
  | .enumFromTo start stop, s => do
    let a ← start.evalLoc s
    let a ← a.coerceMapped.erase.unwrapUsize
    let b ← stop.evalLoc s
    let b ← b.coerceMapped.erase.unwrapUsize
    let a ← Expr.toUsize a
    let b ← Expr.toUsize b
    .ok (.fromEvaluated (.enumFromTo a b))
  | .liftNone, _ => .ok (.fromEvaluated .optNone)
  | .liftSome x, s => do
    let v ← x.evalLoc s
    .ok (.fromEvaluated (.optSome v.coerceMapped.erase))

/-- `Expr::eval_lambda_with_loc` (src/loc_decoder.rs:1069-1077). -/
def Expr.evalLambdaLoc : Expr → LocScope δ → ParsedValue → Panicky Value
  | .lambda name body, s, arg => do
    let v ← body.evalLoc (.single name arg s)
    .ok v.coerceMapped.erase
  | _, _, _ => .panic

/-- `exprs.iter().map(|expr| expr.eval_value_with_loc(scope)).collect()` (src/loc_decoder.rs:604-609). -/
def Expr.evalValuesLoc : List Expr → LocScope δ → Panicky (List Value)
  | [], _ => .ok []
  | e :: es, s => do
    let v ← e.evalLoc s
    let vs ← Expr.evalValuesLoc es s
    .ok (v.coerceMapped.erase :: vs)

/-- the fields of a record expression (src/loc_decoder.rs:613-618). -/
def Expr.evalFieldsLoc : List (String × Expr) → LocScope δ → Panicky (List (String × ParsedValue))
  | [], _ => .ok []
  | (l, e) :: fs, s => do
    let v ← e.evalLoc s
    let vs ← Expr.evalFieldsLoc fs s
    .ok ((l, v) :: vs)

/-- the loop of `Expr::Match` (src/loc_decoder.rs:632-641). -/
def Expr.evalBranchesLoc : List (Pattern × Expr) → LocScope δ → ParsedValue → Panicky ParsedValue
  | [], _, _ => .panic
  | (p, e) :: rest, s, v =>
    match v.matchesPat p with
    | some bs => do
      let r ← e.evalLoc (s.withBindings bs)
      .ok (.fromEvaluated r.coerceMapped.erase)
    | none => Expr.evalBranchesLoc rest s v
end

/-- `Expr::eval_value_with_loc` (src/loc_decoder.rs:1063-1067). -/
def Expr.evalValueLoc {δ : Type} (e : Expr) (s : LocScope δ) : Panicky Value := do
  let v ← e.evalLoc s
  .ok v.coerceMapped.erase

/-- `enum DecodeErrorKind<ParsedValue>` (src/error.rs), kind and offsets. -/
inductive LocErr where
  | fail (offset : Nat)
  | noValidBranch (offset : Nat)
  | trailing (byte : UInt8) (offset : Nat)
  | overbyte (offset : Nat)
  | overrun (size offset : Nat)
  | unexpected (byte : UInt8) (expected : ByteSet) (offset : Nat)
  | badSeek (target len : Nat)
  | badWhere (e : Expr) (v : ParsedValue)

/-- The success case of `ELocDecodeResult<(ParsedValue, ReadCtxt)>` (src/error.rs). -/
abbrev LocParsed := WithErr (ParsedValue × ReadCtxt) LocErr

namespace LocDecoder

/-- `a - b` on `usize` with the overflow check -/
def subUsize (a b : Nat) : Panicky Nat := if b ≤ a then .ok (a - b) else .panic

/-- the state of the sequence-building loops -/
abbrev Acc := WithErr (List ParsedValue × ReadCtxt) LocErr

/-- `v.push(va); (v, next_input)` inside `join` / `fold` (e.g. src/loc_decoder.rs:1417-1420) -/
def push (acc : Acc) (w : LocParsed) : Acc :=
  ⟨(acc.value.1 ++ [w.value.1], w.value.2), w.errs ++ acc.errs⟩

/-- `WithErr::fold` as used by `Tuple`, `Sequence`, `ForEach` and `RepeatCount`
(src/loc_decoder.rs:1408-1437, 1530-1566). -/
def foldItems {σ : Type} (p : σ → ReadCtxt → Outcome LocErr LocParsed) :
    List σ → Acc → Outcome LocErr Acc
  | [], acc => .ok acc
  | x :: xs, acc => do
    let w ← p x acc.value.2
    foldItems p xs (push acc w)

/-- The loop of `While` (src/loc_decoder.rs:1438-1457). -/
def whileLoop (tree : MatchTree) (p : ReadCtxt → Outcome LocErr LocParsed) :
    Nat → Acc → Outcome LocErr Acc
  | 0, _ => .fuel
  | n + 1, acc =>
    match tree.matches acc.value.2 with
    | none => .err (.noValidBranch acc.value.2.offset)
    | some 0 => do
      let w ← p acc.value.2
      whileLoop tree p n (push acc w)
    | some (_ + 1) => .ok acc

/-- The loop of `Until` (src/loc_decoder.rs:1458-1480). -/
def untilLoop (tree : MatchTree) (p : ReadCtxt → Outcome LocErr LocParsed) :
    Nat → Acc → Outcome LocErr Acc
  | 0, _ => .fuel
  | n + 1, acc => do
    let w ← p acc.value.2
    match tree.matches w.value.2 with
    | none => .err (.noValidBranch w.value.2.offset)
    | some 0 => .ok (push acc w)
    | some (_ + 1) => untilLoop tree p n (push acc w)

/-- The loop of `RepeatBetween` (src/loc_decoder.rs:1569-1601). -/
def betweenLoop (tree : MatchTree) (min max : Nat) (start : ReadCtxt)
    (p : ReadCtxt → Outcome LocErr LocParsed) : Nat → Acc → Outcome LocErr Acc
  | 0, _ => .fuel
  | n + 1, acc =>
    match tree.matches start with
    | none => .err (.noValidBranch start.offset)
    | some ix =>
      if ix = 0 ∨ acc.value.1.length = max then
        if acc.value.1.length < min then .panic else .ok acc
      else do
        let w ← p acc.value.2
        betweenLoop tree min max start p n (push acc w)

/-- The loops of `RepeatUntilLast` and `RepeatUntilSeq` (src/loc_decoder.rs:1611-1653). -/
def untilDoneLoop (done : ParsedValue → List ParsedValue → Panicky Bool)
    (p : ReadCtxt → Outcome LocErr LocParsed) : Nat → Acc → Outcome LocErr Acc
  | 0, _ => .fuel
  | n + 1, acc => do
    let w ← p acc.value.2
    let d ← Outcome.ofPanicky (done w.value.1 (acc.value.1 ++ [w.value.1]))
    if d then .ok (push acc w) else untilDoneLoop done p n (push acc w)

/-- The loop of `AccumUntil` (src/loc_decoder.rs:1654-1693); the length passed to `new_seq` is erased again at once. -/
def accumLoop (done : Value → List ParsedValue → Panicky Bool) (update : Value → ParsedValue → Panicky Value)
    (p : ReadCtxt → Outcome LocErr LocParsed) : Nat → Value → Acc → Outcome LocErr (Value × Acc)
  | 0, _, _ => .fuel
  | n + 1, accum, acc => do
    let d ← Outcome.ofPanicky (done accum acc.value.1)
    if d then .ok (accum, acc)
    else do
      let w ← p acc.value.2
      let accum' ← Outcome.ofPanicky (update accum w.value.1)
      accumLoop done update p n accum' (push acc w)

/-- The loop of `Parallel` (src/loc_decoder.rs:1397-1407). -/
def parallelLoop (p : Decoder → Outcome LocErr LocParsed) (offset : Nat) :
    Nat → List Decoder → Outcome LocErr LocParsed
  | _, [] => .err (.fail offset)
  | index, d :: ds =>
    match p d with
    | .ok w => .ok (w.map fun r => (.branch index r.1, r.2))
    | .err _ => parallelLoop p offset (index + 1) ds
    | .panic => .panic
    | .fuel => .fuel

/-- The loop of `Match` (src/loc_decoder.rs:1781-1795). -/
def matchLoop (p : List (String × ParsedValue) → Decoder → Outcome LocErr LocParsed) (head : ParsedValue) :
    Nat → List (Pattern × Decoder) → Outcome LocErr LocParsed
  | _, [] => .panic
  | index, (pat, d) :: rest =>
    match head.matchesPat pat with
    | some bs => do
      let w ← p bs d
      .ok (w.map fun r => (.branch index r.1, r.2))
    | none => matchLoop p head (index + 1) rest

/-- `expr.eval_value_with_loc(scope).unwrap_usize()` -/
def evalUsize {δ : Type} (e : Expr) (s : LocScope δ) : Panicky Nat := do
  let v ← e.evalValueLoc s
  v.unwrapUsize

/-- `expr.eval_value_with_loc(scope).unwrap_bool()` -/
def evalBool {δ : Type} (e : Expr) (s : LocScope δ) : Panicky Bool := do
  let v ← e.evalValueLoc s
  v.unwrapBool

/-- `expr.eval_lambda_with_loc(scope, &arg).unwrap_bool()` -/
def lambdaBool {δ : Type} (e : Expr) (s : LocScope δ) (arg : ParsedValue) : Panicky Bool := do
  let v ← e.evalLambdaLoc s arg
  v.unwrapBool

/-- `Decoder::eval_view_expr_with_loc` (src/loc_decoder.rs:1911-1929). -/
def evalView {δ : Type} (s : LocScope δ) : ViewExpr → Outcome LocErr ReadCtxt
  | .var name => Outcome.ofPanicky (Panicky.unwrap (s.getView name))
  | .offset base e => do
    let v ← Outcome.ofPanicky (e.evalValueLoc s)
    let off ← Outcome.ofPanicky v.unwrapUsize
    let c ← evalView s base
    let r ← Outcome.ofPanicky (c.splitAt off)
    match r with
    | some (_, w) => .ok w
    | none => .err (.overrun off c.offset)

/-- the arguments of `Call` (src/loc_decoder.rs:1329-1332): `eval_with_loc`, wrappers stay. -/
def evalArgs {δ : Type} (s : LocScope δ) : List (String × Expr) → Outcome LocErr (List (String × LocEntry))
  | [] => .ok []
  | (name, e) :: rest => do
    let v ← Outcome.ofPanicky (e.evalLoc s)
    let r ← evalArgs s rest
    .ok ((name, .value v) :: r)

/-- the views of `Call` (src/loc_decoder.rs:1333-1336). -/
def evalViewArgs {δ : Type} (s : LocScope δ) :
    List (String × ViewExpr) → Outcome LocErr (List (String × LocEntry))
  | [] => .ok []
  | (name, v) :: rest => do
    let c ← evalView s v
    let r ← evalViewArgs s rest
    .ok ((name, .view c) :: r)

/-- What `Bits` does with the result of the inner decoder (src/loc_decoder.rs:1725-1732). -/
def finishBits (input : ReadCtxt) (r : ParsedValue × ReadCtxt) : Outcome LocErr LocParsed := do
  let bitsRem ← Outcome.ofPanicky r.2.remaining
  let inputRem ← Outcome.ofPanicky input.remaining
  if inputRem.length < bitsRem.length / 8 then .panic
  else do
    let bytesRead := inputRem.length - bitsRem.length / 8
    let sp ← Outcome.ofPanicky (input.splitAt bytesRead)
    match sp with
    | some (_, c) => .ok (WithErr.new (r.1, c))
    | none => .err (.overrun bytesRead input.offset)

/-- `Value::U8(b)` as a flat value -/
def groundU8 (b : UInt8) : Ground := .num (.fixed .b8) ⟨b.toNat, b.toNat_lt⟩

/-- The loop of `CaptureBytes` (src/loc_decoder.rs:1831-1843); `off` is `view_window.offset + i`. -/
def captureLoop : Nat → Nat → ReadCtxt → List ParsedValue → Outcome LocErr (List ParsedValue)
  | 0, _, _, acc => .ok acc
  | n + 1, off, buf, acc =>
    match buf.readByte with
    | none => .err (.overbyte buf.offset)
    | some (b, buf') => captureLoop n (off + 1) buf' (acc ++ [.newFlat (groundU8 b) off 1])

/-- `read_base` (src/loc_decoder.rs:1932-1968). -/
def readBase (buf : ReadCtxt) (kind : BaseKind) : Outcome LocErr (ParsedValue × ReadCtxt) :=
  match kind.width with
  | .b8 =>
    match buf.readByte with
    | none => .err (.overbyte buf.offset)
    | some (b, buf') => .ok (.newFlat (groundU8 b) buf.offset 1, buf')
  | w =>
    if kind.be then
      match buf.readBe (w.bits / 8) with
      | none => .err (.overrun (w.bits / 8) buf.offset)
      | some (n, buf') =>
        if h : n < (UKind.fixed w).card then
          .ok (.newFlat (.num (.fixed w) ⟨n, h⟩) buf.offset (w.bits / 8), buf')
        else .panic
    else .panic

/-- The loop of `ReadArray` (src/loc_decoder.rs:1857-1861). -/
def readArrayLoop (kind : BaseKind) : Nat → ReadCtxt → List ParsedValue → Outcome LocErr (List ParsedValue)
  | 0, _, acc => .ok acc
  | n + 1, buf, acc => do
    let r ← readBase buf kind
    readArrayLoop kind n r.2 (acc ++ [r.1])

/-- The expressions of `DynFormat::Huffman` with `value_to_vec_usize` (src/loc_decoder.rs:1797-1810,
1970-1981): the value is erased but not coerced. -/
def evalHuffman {δ : Type} (s : LocScope δ) (lengths : Expr) (values : Option Expr) :
    Panicky (List Nat × Option (List Nat)) := do
  let lv ← lengths.evalLoc s
  let ls ← Decoder.valueToVecUsize lv.erase
  match values with
  | none => .ok (ls, none)
  | some e => do
    let vv ← e.evalLoc s
    let vs ← Decoder.valueToVecUsize vv.erase
    .ok (ls, some vs)

/-- `let total_len = input.offset - start_offset; (new_seq(v, start_offset, total_len), input)` -/
def finishSeq (start : Nat) (acc : Acc) : Outcome LocErr LocParsed := do
  let len ← Outcome.ofPanicky (subUsize acc.value.2.offset start)
  .ok (acc.map fun r => (.newSeq r.1 start len, r.2))

/-- `Decoder::parse_with_loc` (src/loc_decoder.rs:1318-1909). -/
def parse (env : Env) : Nat → Decoder → LocScope Decoder → ReadCtxt → Outcome LocErr LocParsed
  | 0, _, _, _ => .fuel
  | n + 1, d, scope, input =>
    match d with
    | .call k args views => do
      let es ← evalArgs scope args
      let vs ← evalViewArgs scope views
      let d ← Outcome.ofPanicky (Panicky.unwrap env.program[k]?)
      parse env n d (.multi (es ++ vs) .empty) input
    | .phantom => .ok (.new (.flat .phantom .synthesized, input))
    | .fail => .err (.fail input.offset)
    | .pos => .ok (.new (.fromEvaluated (.num (.fixed .b64) (Fin.ofNat _ input.offset)), input))
    | .skipRemainder => do
      let len ← Outcome.ofPanicky (subUsize input.skipRemainder.offset input.offset)
      .ok (.new (.unitSpanning input.offset len, input.skipRemainder))
    | .endOfInput =>
      match input.readByte with
      | none => .ok (.new (.unitSpanning input.offset 0, input))
      | some (b, _) => .err (.trailing b input.offset)
    | .align k =>
      if k = 0 then .panic
      else do
        let skip := (k - input.offset % k) % k
        let r ← Outcome.ofPanicky (input.splitAt skip)
        match r with
        | some (_, c) => .ok (.new (.unitSpanning input.offset skip, c))
        | none => .err (.overrun skip input.offset)
    | .byte bs =>
      match input.readByte with
      | none => .err (.overbyte input.offset)
      | some (b, c) =>
        if bs.contains b then .ok (.new (.newFlat (groundU8 b) input.offset 1, c))
        else .err (.unexpected b bs c.offset)
    | .variant label d => do
      let w ← parse env n d scope input
      .ok (w.map fun r => (.variant label r.1, r.2))
    | .branch tree ds =>
      match tree.matches input with
      | none => .err (.noValidBranch input.offset)
      | some index => do
        let d ← Outcome.ofPanicky (Panicky.unwrap ds[index]?)
        let w ← parse env n d scope input
        .ok (w.map fun r => (.branch index r.1, r.2))
    | .parallel ds => parallelLoop (fun d => parse env n d scope input) input.offset 0 ds
    | .tuple ds => do
      let acc ← foldItems (fun d c => parse env n d scope c) ds (.new ([], input))
      let len ← Outcome.ofPanicky (subUsize acc.value.2.offset input.offset)
      .ok (acc.map fun r => (.newTuple r.1 input.offset len, r.2))
    | .sequence ds => do
      let acc ← foldItems (fun d c => parse env n d scope c) ds (.new ([], input))
      finishSeq input.offset acc
    | .while_ tree a => do
      let acc ← whileLoop tree (fun c => parse env n a scope c) n (.new ([], input))
      finishSeq input.offset acc
    | .until_ tree a => do
      let acc ← untilLoop tree (fun c => parse env n a scope c) n (.new ([], input))
      finishSeq input.offset acc
    | .decodeBytes e a => do
      let raw ← Outcome.ofPanicky (e.evalValueLoc scope)
      let q ← Outcome.ofPanicky (Panicky.unwrap raw.getSequence)
      let bs ← Outcome.ofPanicky (Decoder.bytesOf q.items)
      let w ← parse env n a scope (.new bs)
      w.joinO fun r =>
        match r.2.readByte with
        | some (b, _) => .ok (.withErr (r.1, input) (.trailing b r.2.offset))
        | none => .ok (.new (r.1, input))
    | .parseFromView v a => do
      let c ← evalView scope v
      let w ← parse env n a scope c
      .ok (w.map fun r => (r.1, input))
    | .letFormat a name b => do
      let w ← parse env n a scope input
      w.joinO fun r => parse env n b (.single name r.1 scope) r.2
    | .monadSeq a b => do
      let w ← parse env n a scope input
      w.joinO fun r => parse env n b scope r.2
    | .forEach e label a => do
      let v ← Outcome.ofPanicky (e.evalLoc scope)
      let q ← Outcome.ofPanicky (Panicky.unwrap v.getSequence)
      let acc ← foldItems (fun v c => parse env n a (.single label v scope) c) q.items (.new ([], input))
      finishSeq input.offset acc
    | .repeatCount e a => do
      let count ← Outcome.ofPanicky (evalUsize e scope)
      let acc ← foldItems (fun (_ : Unit) c => parse env n a scope c) (List.replicate count ())
        (.new ([], input))
      finishSeq input.offset acc
    | .repeatBetween tree x y a => do
      let min ← Outcome.ofPanicky (evalUsize x scope)
      let max ← Outcome.ofPanicky (evalUsize y scope)
      let acc ← betweenLoop tree min max input (fun c => parse env n a scope c) n (.new ([], input))
      finishSeq input.offset acc
    | .maybe e a => do
      let present ← Outcome.ofPanicky (evalBool e scope)
      if present then do
        let w ← parse env n a scope input
        .ok (w.map fun r => (.optSome r.1, r.2))
      else .ok (.new (.optNone, input))
    | .repeatUntilLast e a => do
      let acc ← untilDoneLoop (fun last _ => lambdaBool e scope last) (fun c => parse env n a scope c) n
        (.new ([], input))
      finishSeq input.offset acc
    | .repeatUntilSeq e a => do
      let acc ← untilDoneLoop (fun _ vs => lambdaBool e scope (.seq vs .synthesized))
        (fun c => parse env n a scope c) n (.new ([], input))
      -- `input` is still the input the whole repetition started with (src/loc_decoder.rs:1650)
      let len ← Outcome.ofPanicky (subUsize input.offset input.offset)
      .ok (acc.map fun r => (.newSeq r.1 input.offset len, r.2))
    | .accumUntil done update init a => do
      let accum ← Outcome.ofPanicky (init.evalValueLoc scope)
      let r ← accumLoop
        (fun accum vs => lambdaBool done scope
          (.fromEvaluated (.tuple [accum, .seq (.strict (ParsedValue.eraseList vs))])))
        (fun accum v => update.evalLambdaLoc scope (.fromEvaluated (.tuple [accum, v.erase])))
        (fun c => parse env n a scope c) n accum (.new ([], input))
      let len ← Outcome.ofPanicky (subUsize r.2.value.2.offset input.offset)
      .ok (r.2.map fun q =>
        (.newTuple [.fromEvaluated r.1, .newSeq q.1 input.offset len] input.offset len, q.2))
    | .peek a => do
      let w ← parse env n a scope input
      .ok (w.map fun r => (r.1, input))
    | .peekNot a =>
      match parse env n a scope input with
      | .ok _ => .err (.fail input.offset)
      | .err _ => .ok (.new (.unitSpanning input.offset 0, input))
      | .panic => .panic
      | .fuel => .fuel
    | .slice e a => do
      let size ← Outcome.ofPanicky (evalUsize e scope)
      let sp ← Outcome.ofPanicky (input.splitAt size)
      match sp with
      | none => .err (.overrun size input.offset)
      | some (head, tail) => do
        let w ← parse env n a scope head
        .ok (w.map fun r => (r.1, tail))
    | .bits a => do
      let bytes ← Outcome.ofPanicky input.remaining
      let w ← parse env n a scope (.new (Decoder.bitsOf bytes))
      w.joinO (finishBits input)
    | .withRelativeOffset base off a => do
      let b ← Outcome.ofPanicky (evalUsize base scope)
      let o ← Outcome.ofPanicky (evalUsize off scope)
      let target ← Outcome.ofPanicky (addUsize b o)
      match input.seekTo target with
      | none => .err (.badSeek target input.input.length)
      | some c => do
        let w ← parse env n a scope c
        .ok (w.map fun r => (r.1, input))
    | .map d e => do
      let w ← parse env n d scope input
      let v ← Outcome.ofPanicky (e.evalLambdaLoc scope w.value.1)
      .ok (w.map fun r => (.mapped r.1 (.inherit r.1 v), r.2))
    | .where_ d e strict => do
      let w ← parse env n d scope input
      w.joinO fun r => do
        let ok ← Outcome.ofPanicky (lambdaBool e scope r.1)
        if ok then .ok (.new r)
        else if strict then .err (.badWhere e r.1)
        else .ok (.withErr r (.badWhere e r.1))
    | .compute e => do
      let v ← Outcome.ofPanicky (e.evalLoc scope)
      .ok (.new (v, input))
    | .let_ name e d => do
      let v ← Outcome.ofPanicky (e.evalLoc scope)
      parse env n d (.single name v scope) input
    | .letView name d => parse env n d (.view name input scope) input
    | .match_ head branches => do
      let v ← Outcome.ofPanicky (head.evalLoc scope)
      matchLoop (fun bs d => parse env n d (scope.withBindings bs) input) v 0 branches
    | .dynamic name lengths values d => do
      let lv ← Outcome.ofPanicky (evalHuffman scope lengths values)
      let f ← Outcome.ofPanicky (Decoder.huffmanFormat lv.1 lv.2)
      match env.compileOne f with
      | .ok (some dyn) => parse env n d (.decoder name dyn scope) input
      | .ok none => .panic
      | .panic => .panic
      | .fuel => .fuel
    | .apply name => do
      let d ← Outcome.ofPanicky (Panicky.unwrap (scope.getDecoder name))
      parse env n d scope input
    | .liftedNone => .ok (.new (.fromEvaluated .optNone, input))
    | .liftedSome d => do
      let w ← parse env n d scope input
      .ok (w.map fun r => (.optSome r.1, r.2))
    | .captureBytes v len => do
      let k ← Outcome.ofPanicky (evalUsize len scope)
      let c ← evalView scope v
      let vs ← captureLoop k c.offset c []
      .ok (.new (.newSeq vs c.offset k, input))
    | .readArray v len kind => do
      let k ← Outcome.ofPanicky (evalUsize len scope)
      let c ← evalView scope v
      let vs ← readArrayLoop kind k c []
      .ok (.new (.newSeq vs c.offset (k * (kind.width.bits / 8)), input))
    | .reifyView v => do
      let c ← evalView scope v
      .ok (.new (.fromEvaluated (.view c.offset), input))
    | .enforce a => do
      let w ← parse env n a scope input
      match w.errs with
      | [] => .ok (.new w.value)
      | e :: _ => .err e
    | .permit a e =>
      match parse env n a scope input with
      | .ok w => .ok (w.map fun r => (.permitOk r.1, r.2))
      | .err err => do
        let v ← Outcome.ofPanicky (e.evalLoc scope)
        .ok (.withErr (.permitErr v, input) err)
      | .panic => .panic
      | .fuel => .fuel

/-- `Program::run_with_loc` (src/loc_decoder.rs:1081-1091). -/
def run (env : Env) (fuel : Nat) (input : ReadCtxt) : Outcome LocErr LocParsed := do
  let d ← Outcome.ofPanicky (Panicky.unwrap env.program[0]?)
  parse env fuel d .empty input

end LocDecoder
end Doodle
