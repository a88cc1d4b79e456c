import Verif.Model.Value
import Verif.Model.ValueType
import Verif.Model.Read
import Verif.Model.Search
import Verif.Model.Prelude

/-!
Model of run-time scopes (/repo/src/decoder.rs:917-1156) and of expressions: evaluation
(/repo/src/decoder.rs:65-467), static bounds and the shadowing test (/repo/src/lib.rs:628-764).

`Scope` is generic in what a `DecoderScope` binds, because expression evaluation never looks at it.
`Cow` is not modelled: borrowed and owned results are the same value.
Values of type `TypeHint` inside expressions are ignored by evaluation.
-/

namespace Doodle

open Num (BitWidth)

/-- `enum ViewOrValue` (src/decoder.rs:931-935). -/
inductive ViewOrValue where
  | view (c : ReadCtxt)
  | value (v : Value)

/-- `enum Scope` with `MultiScope`, `SingleScope`, `DecoderScope`, `ViewScope` (src/decoder.rs:923-960).
The entries of a `MultiScope` are in push order. -/
inductive Scope (δ : Type) where
  | empty
  | multi (entries : List (String × ViewOrValue)) (parent : Scope δ)
  | single (name : String) (v : Value) (parent : Scope δ)
  | decoder (name : String) (d : δ) (parent : Scope δ)
  | view (name : String) (c : ReadCtxt) (parent : Scope δ)

namespace Scope
variable {δ : Type}

/-- The loop of `MultiScope::get_value_by_name` (src/decoder.rs:1055-1066), over the reversed entries. -/
def findValue (name : String) : List (String × ViewOrValue) → Option Value
  | [] => none
  | (n, vv) :: rest =>
    if n = name then
      match vv with
      | .value v => some v
      | .view _ => findValue name rest
    else findValue name rest

/-- The loop of `MultiScope::get_view_by_name` (src/decoder.rs:1040-1051), over the reversed entries. -/
def findView (name : String) : List (String × ViewOrValue) → Option ReadCtxt
  | [] => none
  | (n, vv) :: rest =>
    if n = name then
      match vv with
      | .view c => some c
      | .value _ => findView name rest
    else findView name rest

/-- `Scope::get_value_by_name` (src/decoder.rs:969-977, 1054-1068, 1099-1105); `none` is
`UnknownVarError`. -/
def getValue (name : String) : Scope δ → Option Value
  | .empty => none
  | .multi entries parent =>
    match findValue name entries.reverse with
    | some v => some v
    | none => parent.getValue name
  | .single n v parent => if n = name then some v else parent.getValue name
  | .decoder _ _ parent => parent.getValue name
  | .view _ _ parent => parent.getValue name

/-- `Scope::get_decoder_by_name` (src/decoder.rs:979-987, 1125-1131); `none` is the panic. -/
def getDecoder (name : String) : Scope δ → Option δ
  | .empty => none
  | .multi _ parent => parent.getDecoder name
  | .single _ _ parent => parent.getDecoder name
  | .decoder n d parent => if n = name then some d else parent.getDecoder name
  | .view _ _ parent => parent.getDecoder name

/-- `Scope::get_view_by_name` (src/decoder.rs:989-997, 1039-1052, 1146-1152); `none` is the panic. -/
def getView (name : String) : Scope δ → Option ReadCtxt
  | .empty => none
  | .multi entries parent =>
    match findView name entries.reverse with
    | some c => some c
    | none => parent.getView name
  | .single _ _ parent => parent.getView name
  | .decoder _ _ parent => parent.getView name
  | .view n c parent => if n = name then some c else parent.getView name

/-- The child scope that `Value::matches` returns (src/decoder/value.rs:272-281). -/
def withBindings (parent : Scope δ) (bs : List (String × Value)) : Scope δ :=
  .multi (bs.map fun b => (b.1, .value b.2)) parent

/-- `lookup_var` (src/scope.rs:24-31) followed by `StrictValue::try_from`, as used by
`NumExpr::eval` (src/numeric/core.rs:1546-1549). -/
def numLookup (s : Scope δ) (name : String) : Num.Out Num.StrictValue :=
  match s.getValue name with
  | none => .err (.unknownVar name)
  | some v =>
    match v.toStrict with
    | some sv => .ok sv
    | none => .err .badVariable

end Scope

/-- `enum Expr` (src/lib.rs:145-214); `lit` is `U8`, `U16`, `U32`, `U64`; `asNum w` is `AsU8` ..
`AsU64`; `fromBytes w be` is `U16Be`, `U16Le`, .., `U64Le`. The `TypeHint` operands play no part in evaluation. -/
inductive Expr where
  | var (name : String)
  | bool (b : Bool)
  | lit (w : BitWidth) (n : Fin (UKind.fixed w).card)
  | tuple (es : List Expr)
  | tupleProj (head : Expr) (index : Nat)
  | record (fs : List (String × Expr))
  | recordProj (head : Expr) (label : String)
  | variant (label : String) (e : Expr)
  | seq (es : List Expr)
  | numeric (n : Num.Expr)
  | match_ (head : Expr) (branches : List (Pattern × Expr))
  | destructure (head : Expr) (pat : Pattern) (body : Expr)
  | lambda (name : String) (body : Expr)
  | intRel (r : IntRel) (x y : Expr)
  | arith (op : Arith) (x y : Expr)
  | unary (op : UnaryOp) (x : Expr)
  | asNum (w : BitWidth) (x : Expr)
  | asChar (x : Expr)
  | fromBytes (w : BitWidth) (be : Bool) (x : Expr)
  | seqLength (s : Expr)
  | subSeq (s start length : Expr)
  | seqIx (s index : Expr)
  | subSeqInflate (s start length : Expr)
  | flatMap (f s : Expr)
  | flatMapAccum (f accum : Expr) (ty : ValueType) (s : Expr)
  | flatMapList (f : Expr) (ty : ValueType) (s : Expr)
  | findByKey (sorted : Bool) (f query s : Expr)
  | enumFromTo (start stop : Expr)
  | leftFold (f accum : Expr) (ty : ValueType) (s : Expr)
  | dup (count x : Expr)
  | liftNone
  | liftSome (x : Expr)
  | append (x y : Expr)

namespace Expr

/-- `Expr::UNIT` (src/lib.rs:217). -/
def unit : Expr := .tuple []

/-- `char::from_u32(n).unwrap_or(REPLACEMENT_CHARACTER)` (std). -/
def charOfU32 (n : Nat) : Char :=
  if h : n.isValidChar then Char.ofNatAux n h else Char.ofNat 0xFFFD

/-- conversion of `AsU8` .. `AsU64` (src/decoder.rs:131-177). -/
def castTo (w : BitWidth) : Value → Panicky Value
  | .num _ n => Value.mkNum (.fixed w) n.val
  | _ => .panic

/-- conversion of `AsChar` (src/decoder.rs:231-249). -/
def castChar : Value → Panicky Value
  | .num _ n => if n.val < u32Card then .ok (.char (charOfU32 n.val)) else .panic
  | _ => .panic

/-- the bytes of a tuple of `U8` values -/
def u8List : List Value → Option (List UInt8)
  | [] => some []
  | .num (.fixed .b8) n :: vs => (u8List vs).map (UInt8.ofNat n.val :: ·)
  | _ :: _ => none

/-- `U16Be` .. `U64Le` (src/decoder.rs:179-230): a tuple of exactly `w` bytes. -/
def wordOf (w : BitWidth) (be : Bool) (v : Value) : Panicky Value :=
  match v with
  | .tuple vs =>
    match u8List vs with
    | some bs =>
      if bs.length * 8 = w.bits then
        Value.mkNum (.fixed w) (if be then fromBeBytes bs else Prelude.fromLeBytes bs)
      else .panic
    | none => .panic
  | _ => .panic

/-- `SeqLength` (src/decoder.rs:250-256): `len as u32` drops high bits. -/
def lengthOf (v : Value) : Panicky Value :=
  match v.getSequence with
  | some s => Value.mkNum (.fixed .b32) (s.len % u32Card)
  | none => .panic

/-- `SeqIx` on an evaluated sequence and index (src/decoder.rs:257-270). -/
def indexOf (v : Value) (ix : Nat) : Panicky Value :=
  match v.getSequence with
  | some (.vals s) => s.index ix
  | some (.range a b) => if a.val + ix < b.val then .ok (Value.ofUsize (a.val + ix)) else .panic
  | none => .panic

/-- the `usize` value `n`, or an overflow panic -/
def toUsize (n : Nat) : Panicky (Fin usizeCard) := if h : n < usizeCard then .ok ⟨n, h⟩ else .panic

/-- `SubSeq` on an evaluated sequence (src/decoder.rs:271-287). -/
def subSeqOf (v : Value) (start length : Nat) : Panicky Value :=
  match v.getSequence with
  | some (.vals s) => do
    let r ← s.subSeq start length
    .ok (.seq r)
  | some (.range a b) => do
    let r ← subRange (a.val, b.val) start length
    let x ← toUsize r.1
    let y ← toUsize r.2
    .ok (.enumFromTo x y)
  | none => .panic

/-- `SubSeqInflate` on an evaluated sequence (src/decoder.rs:288-325). -/
def inflateOf (v : Value) (start length : Nat) : Panicky Value :=
  match v.getSequence with
  | some (.vals s) => do
    let vs ← Prelude.inflateSeq s start length
    .ok (.seq (.strict vs))
  | some (.range a b) => do
    let vs ← Prelude.inflateRange Value.ofUsize a.val b.val start length
    .ok (.seq (.strict vs))
  | none => .panic

/-- `Append` on evaluated sequences (src/decoder.rs:326-341). -/
def appendOf (v0 v1 : Value) : Panicky Value :=
  match v0.getSequence with
  | some s0 =>
    match v1.getSequence with
    | some s1 =>
      if s0.isEmpty then .ok v1
      else if s1.isEmpty then .ok v0
      else do
        let s ← s0.append s1
        .ok (.seq s)
    | none => .panic
  | none => .panic

/-- The loop of `FlatMap` (src/decoder.rs:345-360). -/
def flatMapLoop (f : Value → Panicky Value) : List Value → List Value → Panicky (List Value)
  | vs, [] => .ok vs
  | vs, v :: rest => do
    let r ← f v
    match r.getSequence with
    | some s => flatMapLoop f (vs ++ s.items) rest
    | none => .panic

/-- The loop of `FlatMapAccum` (src/decoder.rs:368-380); `extract_pair` (49-60) panics unless there are
two values. -/
def flatMapAccumLoop (f : Value → Panicky Value) : Value → List Value → List Value → Panicky (List Value)
  | _, vs, [] => .ok vs
  | accum, vs, v :: rest => do
    let r ← f (.tuple [accum, v])
    match r with
    | .tuple [accum', .seq vn] => flatMapAccumLoop f accum' (vs ++ vn.iter) rest
    | _ => .panic

/-- The loop of `LeftFold` (src/decoder.rs:386-394). -/
def leftFoldLoop (f : Value → Panicky Value) : Value → List Value → Panicky Value
  | accum, [] => .ok accum
  | accum, v :: rest => do
    let a ← f (.tuple [accum, v])
    leftFoldLoop f a rest

/-- The loop of `FlatMapList` (src/decoder.rs:418-438). -/
def flatMapListLoop (f : Value → Panicky Value) : List Value → List Value → Panicky (List Value)
  | vs, [] => .ok vs
  | vs, v :: rest => do
    let r ← f (.tuple [.seq (.strict vs), v])
    match r with
    | .seq vn => flatMapListLoop f (vs ++ vn.iter) rest
    | _ => .panic

/-- `FindByKey` on evaluated operands (src/decoder.rs:395-417). -/
def findByKeyOf (sorted : Bool) (f : Value → Panicky Value) (query : Value) (values : SeqKind Value) :
    Panicky Value := do
  let ix ←
    if sorted then
      findIndexByKeySorted (fun k => query.compareAsKey k)
        (fun i => do let v ← values.index i; f v) values.len
    else findIndexByKeyUnsorted (fun k => query.eqKey k) f values.iter 0
  match ix with
  | some i => do
    let v ← values.index i
    .ok (.optSome v)
  | none => .ok .optNone

/-- `Value::Numeric` result of a numeric expression, errors panic (src/decoder.rs:72-78). -/
def numericResult : Num.Out Num.TypedConst → Panicky Value
  | .ok c => .ok (.numeric c)
  | _ => .panic

/-- the elements of a `Value::Seq`; anything else panics -/
def needSeq : Value → Panicky (SeqKind Value)
  | .seq s => .ok s
  | _ => .panic

end Expr

mutual
variable {δ : Type}

/-- `Expr::eval` (src/decoder.rs:65-446).  `eval_value` (src/decoder.rs:448-457) is `eval` followed by
`coerceMapped`. -/
def Expr.eval : Expr → Scope δ → Panicky Value
  | .var name, s => Panicky.unwrap (s.getValue name)
  | .bool b, _ => .ok (.bool b)
  | .lit w n, _ => .ok (.num (.fixed w) n)
  | .numeric n, s => Expr.numericResult (n.eval s.numLookup)
  | .tuple es, s => do
    let vs ← Expr.evalValues es s
    .ok (.tuple vs)
  | .tupleProj head index, s => do
    let v ← head.eval s
    v.coerceMapped.tupleProj index
  | .record fs, s => do
    let vs ← Expr.evalFields fs s
    .ok (.record vs)
  | .recordProj head label, s => do
    let v ← head.eval s
    v.coerceMapped.recordProj label
  | .variant label e, s => do
    let v ← e.eval s
    .ok (.variant label v.coerceMapped)
  | .seq es, s => do
    let vs ← Expr.evalValues es s
    .ok (.seq (.strict vs))
  | .match_ head branches, s => do
    let v ← head.eval s
    Expr.evalBranches branches s v
  | .destructure head pat body, s => do
    let v ← head.eval s
    match v.matchesPat pat with
    | some bs => do
      let r ← body.eval (s.withBindings bs)
      .ok r.coerceMapped
    | none => .panic
  | .lambda _ _, _ => .panic
  | .intRel r x y, s => do
    let l ← x.eval s
    let v ← y.eval s
    Value.intRel r l.coerceMapped v.coerceMapped
  | .arith op x y, s => do
    let l ← x.eval s
    let v ← y.eval s
    Value.arith op l.coerceMapped v.coerceMapped
  | .unary op x, s => do
    let v ← x.eval s
    Value.unary op v.coerceMapped
  | .asNum w x, s => do
    let v ← x.eval s
    Expr.castTo w v.coerceMapped
  | .asChar x, s => do
    let v ← x.eval s
    Expr.castChar v.coerceMapped
  | .fromBytes w be x, s => do
    let v ← x.eval s
    Expr.wordOf w be v.coerceMapped
  | .seqLength x, s => do
    let v ← x.eval s
    Expr.lengthOf v.coerceMapped
  | .seqIx x index, s => do
    let v ← x.eval s
    let i ← index.eval s
    let ix ← i.coerceMapped.unwrapUsize
    Expr.indexOf v.coerceMapped ix
  | .subSeq x start length, s => do
    let v ← x.eval s
    let a ← start.eval s
    let a ← a.coerceMapped.unwrapUsize
    let n ← length.eval s
    let n ← n.coerceMapped.unwrapUsize
    Expr.subSeqOf v.coerceMapped a n
  | .subSeqInflate x start length, s => do
    let v ← x.eval s
    let a ← start.eval s
    let a ← a.coerceMapped.unwrapUsize
    let n ← length.eval s
    let n ← n.coerceMapped.unwrapUsize
    Expr.inflateOf v.coerceMapped a n
  | .append x y, s => do
    let v0 ← x.eval s
    let v1 ← y.eval s
    Expr.appendOf v0.coerceMapped v1.coerceMapped
  | .flatMap f x, s => do
    let v ← x.eval s
    match v.coerceMapped.getSequence with
    | some vs => do
      let r ← Expr.flatMapLoop (fun a => f.evalLambda s a) [] vs.items
      .ok (.seq (.strict r))
    | none => .panic
  | .flatMapAccum f accum _ x, s => do
    let v ← x.eval s
    let vs ← Expr.needSeq v.coerceMapped
    let a ← accum.eval s
    let r ← Expr.flatMapAccumLoop (fun a => f.evalLambda s a) a.coerceMapped [] vs.iter
    .ok (.seq (.strict r))
  | .leftFold f accum _ x, s => do
    let v ← x.eval s
    let vs ← Expr.needSeq v.coerceMapped
    let a ← accum.eval s
    Expr.leftFoldLoop (fun a => f.evalLambda s a) a.coerceMapped vs.iter
  | .findByKey sorted f query x, s => do
    let v ← x.eval s
    let vs ← Expr.needSeq v.coerceMapped
    let q ← query.eval s
    Expr.findByKeyOf sorted (fun a => f.evalLambda s a) q.coerceMapped vs
  | .flatMapList f _ x, s => do
    let v ← x.eval s
    let vs ← Expr.needSeq v.coerceMapped
    let r ← Expr.flatMapListLoop (fun a => f.evalLambda s a) [] vs.iter
    .ok (.seq (.strict r))
  | .dup count x, s => do
    let c ← count.eval s
    let c ← c.coerceMapped.unwrapUsize
    let v ← x.eval s
    .ok (.seq (.dup c v.coerceMapped))
  | .enumFromTo start stop, s => do
    let a ← start.eval s
    let a ← a.coerceMapped.unwrapUsize
    let b ← stop.eval s
    let b ← b.coerceMapped.unwrapUsize
    let a ← Expr.toUsize a
    let b ← Expr.toUsize b
    .ok (.enumFromTo a b)
  | .liftNone, _ => .ok .optNone
  | .liftSome x, s => do
    let v ← x.eval s
    .ok (.optSome v.coerceMapped)

/-- `Expr::eval_lambda` (src/decoder.rs:459-467). -/
def Expr.evalLambda : Expr → Scope δ → Value → Panicky Value
  | .lambda name body, s, arg => do
    let v ← body.eval (.single name arg s)
    .ok v.coerceMapped
  | _, _, _ => .panic

/-- `exprs.iter().map(|expr| expr.eval_value(scope)).collect()` (src/decoder.rs:79-81, 100-102). -/
def Expr.evalValues : List Expr → Scope δ → Panicky (List Value)
  | [], _ => .ok []
  | e :: es, s => do
    let v ← e.eval s
    let vs ← Expr.evalValues es s
    .ok (v.coerceMapped :: vs)

/-- the fields of a record expression (src/decoder.rs:85-89): `eval`, not `eval_value`. -/
def Expr.evalFields : List (String × Expr) → Scope δ → Panicky (List (String × Value))
  | [], _ => .ok []
  | (l, e) :: fs, s => do
    let v ← e.eval s
    let vs ← Expr.evalFields fs s
    .ok ((l, v) :: vs)

/-- the `for (pattern, expr) in branches` loop of `Expr::Match` (src/decoder.rs:103-112). -/
def Expr.evalBranches : List (Pattern × Expr) → Scope δ → Value → Panicky Value
  | [], _, _ => .panic
  | (p, e) :: rest, s, v =>
    match v.matchesPat p with
    | some bs => do
      let r ← e.eval (s.withBindings bs)
      .ok r.coerceMapped
    | none => Expr.evalBranches rest s v
end

namespace Expr
variable {δ : Type}

/-- `Expr::eval_value` (src/decoder.rs:448-457). -/
def evalValue (e : Expr) (s : Scope δ) : Panicky Value := do
  let v ← e.eval s
  .ok v.coerceMapped

/-- `Bounds::clamp(..).unwrap_or(Bounds::any())` with the maximum of the type (src/lib.rs:712-731). -/
def clampTo (w : BitWidth) (b : Bounds) : Panicky Bounds := do
  let r ← b.clamp 0 ((UKind.fixed w).card - 1)
  .ok (r.getD Bounds.any)

/-- `Expr::bounds` (src/lib.rs:705-763). -/
def bounds : Expr → Panicky Bounds
  | .lit _ n => .ok (.exact n.val)
  | .asNum w x => do
    let b ← x.bounds
    clampTo w b
  | .arith op x y =>
    match op with
    | .add => do let a ← x.bounds; let b ← y.bounds; .ok (a.add b)
    | .sub => do let a ← x.bounds; let b ← y.bounds; .ok (a.sub b)
    | .mul => do let a ← x.bounds; let b ← y.bounds; .ok (a.mul b)
    | .div => do let a ← x.bounds; let b ← y.bounds; .ok (a.div b)
    | .bitOr => do let a ← x.bounds; let b ← y.bounds; a.bitOr b
    | .bitAnd => do let a ← x.bounds; let b ← y.bounds; a.bitAnd b
    | .shl => do let a ← x.bounds; let b ← y.bounds; .ok (a.shl b)
    | .shr => do let a ← x.bounds; let b ← y.bounds; .ok (a.shr b)
    | .rem => do let a ← x.bounds; let b ← y.bounds; Bounds.rem a b
    | .boolOr => .ok .any
    | .boolAnd => .ok .any
  | .unary op x =>
    match op with
    | .boolNot => .ok .any
    | .intPred => do let a ← x.bounds; .ok (a.sub (.exact 1))
    | .intSucc => do let a ← x.bounds; .ok (a.add (.exact 1))
  | .numeric n =>
    match n.evalStrict Num.voidScope with
    | .ok sv =>
      if sv.isValid then
        match sv.value.asUsize with
        | some n => .ok (.exact n)
        | none => .ok .any
      else .ok .any
    | .err _ => .ok .any
    | .panic => .panic
  | _ => .ok .any

end Expr

/-- `NumExpr::iter_vars` (src/numeric/core.rs:1010-1020). -/
def Num.Expr.vars : Num.Expr → List String
  | .numVar l => [l]
  | .const _ => []
  | .binOp _ _ l r => l.vars ++ r.vars
  | .unaryOp _ _ e => e.vars
  | .cast _ _ e => e.vars

mutual
/-- `Expr::is_shadowed_by` (src/lib.rs:631-702). -/
def Expr.isShadowedBy (name : String) : Expr → Bool
  | .var vname => vname == name
  | .lambda head body => if head = name then false else body.isShadowedBy name
  | .arith _ x y => x.isShadowedBy name || y.isShadowedBy name
  | .intRel _ x y => x.isShadowedBy name || y.isShadowedBy name
  | .append x y => x.isShadowedBy name || y.isShadowedBy name
  | .unary _ x => x.isShadowedBy name
  | .dup x y => x.isShadowedBy name || y.isShadowedBy name
  | .bool _ => false
  | .lit _ _ => false
  | .numeric n => n.vars.any (fun v => v == name)
  | .tuple es => Expr.anyShadowed name es
  | .tupleProj e _ => e.isShadowedBy name
  | .record fs => Expr.fieldsShadowed name fs
  | .recordProj e _ => e.isShadowedBy name
  | .variant _ e => e.isShadowedBy name
  | .seq es => Expr.anyShadowed name es
  | .match_ head arms => head.isShadowedBy name || Expr.armsShadowed name arms
  | .destructure head pat body =>
    head.isShadowedBy name || (!pat.shadows name && body.isShadowedBy name)
  | .asNum _ x => x.isShadowedBy name
  | .asChar x => x.isShadowedBy name
  | .fromBytes _ _ x => x.isShadowedBy name
  | .seqLength x => x.isShadowedBy name
  | .enumFromTo x y => x.isShadowedBy name || y.isShadowedBy name
  | .subSeq x y z => x.isShadowedBy name || y.isShadowedBy name || z.isShadowedBy name
  | .subSeqInflate x y z => x.isShadowedBy name || y.isShadowedBy name || z.isShadowedBy name
  | .seqIx x y => x.isShadowedBy name || y.isShadowedBy name
  | .flatMap f x => f.isShadowedBy name || x.isShadowedBy name
  | .flatMapList f _ x => f.isShadowedBy name || x.isShadowedBy name
  | .flatMapAccum f z _ x => f.isShadowedBy name || z.isShadowedBy name || x.isShadowedBy name
  | .leftFold f z _ x => f.isShadowedBy name || z.isShadowedBy name || x.isShadowedBy name
  | .findByKey _ k v x => k.isShadowedBy name || v.isShadowedBy name || x.isShadowedBy name
  | .liftNone => false
  | .liftSome x => x.isShadowedBy name

/-- `ts.iter().any(|x| x.is_shadowed_by(name))` -/
def Expr.anyShadowed (name : String) : List Expr → Bool
  | [] => false
  | e :: es => e.isShadowedBy name || Expr.anyShadowed name es

/-- the record case (src/lib.rs:651-662): a field called `name` ends the search. -/
def Expr.fieldsShadowed (name : String) : List (String × Expr) → Bool
  | [] => false
  | (l, e) :: fs =>
    if e.isShadowedBy name then true else if l = name then false else Expr.fieldsShadowed name fs

/-- the match arms (src/lib.rs:667-671) -/
def Expr.armsShadowed (name : String) : List (Pattern × Expr) → Bool
  | [] => false
  | (p, e) :: rest => (!p.shadows name && e.isShadowedBy name) || Expr.armsShadowed name rest
end

end Doodle
