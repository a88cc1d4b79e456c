import Verif.Model.Format
import Verif.Model.Outcome

/-!
Model of the type inference of the format API (/repo/src/lib.rs:225-626, 780-823, 1019-1359,
2310-2366; /repo/src/pattern.rs:60-105; /repo/src/numeric/core.rs:959-994).

An `anyhow` error is `.err ()`: its text is left out.  Types of items (`args`, `format_types` of a
`FormatModule`) are in a structure of their own, `ItemTypes`, beside `Module`.
-/

namespace Doodle

open Num (BitWidth)

/-- `enum ValueKind<T>` (src/lib.rs:57-63). -/
inductive ValueKind where
  | value (t : ValueType)
  | view
  | format (t : ValueType)

/-- `struct TypeScope` (src/lib.rs:2310-2314): the entries of all enclosing scopes, the last pushed
first.  `TypeScope::child` followed by `push`, `push_format`, `push_view` (2328-2352) is consing. -/
abbrev TypeScope := List (String × ValueKind)

/-- the result of a function returning `AResult` -/
abbrev Infer (α : Type) := Outcome Unit α

namespace TypeScope

/-- `TypeScope::get_type_by_name` (src/lib.rs:2354-2366); not found is the panic. -/
def get (name : String) : TypeScope → Infer ValueKind
  | [] => .panic
  | (n, k) :: rest => if n = name then .ok k else get name rest

/-- the type of a variable that must be a value (src/lib.rs:235-243, src/numeric/core.rs:987-991) -/
def getValue (name : String) (Γ : TypeScope) : Infer ValueType := do
  let k ← Γ.get name
  match k with
  | .value t => .ok t
  | .view => .err ()
  | .format _ => .err ()

end TypeScope

namespace ValueType

/-- `t1.unify(t2)?` -/
def unifyI (t1 t2 : ValueType) : Infer ValueType := Outcome.ofOption () (t1.unify t2)

end ValueType

/-- `NumExpr::infer_type` (src/numeric/core.rs:969-993). -/
def Num.Expr.inferType (Γ : TypeScope) : Num.Expr → Infer ValueType
  | .const c => .ok (.ofRep c.rep)
  | .binOp _ outRep l r =>
    match outRep with
    | some rep => .ok (.ofMachine rep)
    | none => do
      let t1 ← l.inferType Γ
      let t2 ← r.inferType Γ
      t1.unifyI t2
  | .unaryOp _ outRep e =>
    match outRep with
    | some rep => .ok (.ofMachine rep)
    | none => e.inferType Γ
  | .cast rep _ _ => .ok (.ofMachine rep)
  | .numVar name => Γ.getValue name

mutual
/-- `Pattern::build_scope` (src/pattern.rs:60-105); a pattern that does not fit the type panics. -/
def Pattern.buildScope : Pattern → TypeScope → ValueType → Infer TypeScope
  | .binding name, Γ, t => .ok ((name, .value t) :: Γ)
  | .wildcard, Γ, _ => .ok Γ
  | .bool _, Γ, .base .bool => .ok Γ
  | .lit w _, Γ, .base (.num w') => if w = w' then .ok Γ else .panic
  | .int _, Γ, .base (.num _) => .ok Γ
  | .zConst _, Γ, t => if t.isNumeric then .ok Γ else .panic
  | .zRange _, Γ, t => if t.isNumeric then .ok Γ else .panic
  | .tuple ps, Γ, .tuple ts =>
    if ps.length = ts.length then Pattern.buildScopes ps Γ ts else .panic
  | .seq ps, Γ, .seq t => Pattern.buildScopeSeq ps Γ t
  | .optNone, Γ, .option _ => .ok Γ
  | .optSome p, Γ, .option t => p.buildScope Γ t
  | .variant label p, Γ, .union branches =>
    match TMap.get label branches with
    | some t => p.buildScope Γ t
    | none => .panic
  | _, _, _ => .panic

/-- the loop over the elements of a tuple pattern (src/pattern.rs:78-82) -/
def Pattern.buildScopes : List Pattern → TypeScope → List ValueType → Infer TypeScope
  | p :: ps, Γ, t :: ts => do
    let Γ' ← p.buildScope Γ t
    Pattern.buildScopes ps Γ' ts
  | _, Γ, _ => .ok Γ

/-- the loop over the elements of a sequence pattern (src/pattern.rs:83-87) -/
def Pattern.buildScopeSeq : List Pattern → TypeScope → ValueType → Infer TypeScope
  | [], Γ, _ => .ok Γ
  | p :: ps, Γ, t => do
    let Γ' ← p.buildScope Γ t
    Pattern.buildScopeSeq ps Γ' t
end

namespace ValueType

/-- `vs[*index].clone()` on a tuple type (src/lib.rs:257-260) -/
def tupleProjI (t : ValueType) (index : Nat) : Infer ValueType :=
  match t with
  | .tuple ts => Outcome.ofPanicky (Panicky.unwrap ts[index]?)
  | _ => .err ()

/-- `ValueType::record_proj` (src/valuetype.rs:241-252) -/
def recordProjI (t : ValueType) (label : String) : Infer ValueType :=
  Outcome.ofPanicky (Panicky.unwrap (t.recordProj label))

/-- the element type of a sequence type, else the error -/
def elemI : ValueType → Infer ValueType
  | .seq t => .ok t
  | _ => .err ()

/-- `if t.is_numeric() { Ok(r) } else { Err(..) }` -/
def needNumeric (t r : ValueType) : Infer ValueType := if t.isNumeric then .ok r else .err ()

/-- `t == ValueType::U32`, else the error -/
def needU32 : ValueType → Infer Unit
  | .base (.num .b32) => .ok ()
  | _ => .err ()

/-- the tuple of exactly `n` bytes that `U16Be` .. `U64Le` require (src/lib.rs:359-411) -/
def needBytes (n : Nat) : ValueType → Infer Unit
  | .tuple ts =>
    if ts.length = n ∧ (ts.all fun t => match t with | .base (.num .b8) => true | _ => false) then .ok ()
    else .err ()
  | _ => .err ()

/-- the result type of an arithmetic operator (src/lib.rs:309-332) -/
def arithI (op : Arith) (t1 t2 : ValueType) : Infer ValueType :=
  match op with
  | .boolAnd | .boolOr =>
    match t1, t2 with
    | .base .bool, .base .bool => .ok .bool
    | _, _ => .err ()
  | _ => do
    let t ← t1.unifyI t2
    t.needNumeric t

/-- the result type of a unary operator (src/lib.rs:333-344) -/
def unaryI (op : UnaryOp) (t : ValueType) : Infer ValueType :=
  match op with
  | .boolNot =>
    match t with
    | .base .bool => .ok .bool
    | _ => .err ()
  | _ => t.needNumeric t

end ValueType

mutual
/-- `Expr::infer_type` (src/lib.rs:233-625); the arms in the same order. -/
def Expr.inferType : Expr → TypeScope → Infer ValueType
  | .var name, Γ => Γ.getValue name
  | .bool _, _ => .ok .bool
  | .lit w _, _ => .ok (.u w)
  | .numeric n, Γ => n.inferType Γ
  | .tuple es, Γ => do
    let ts ← Expr.inferList es Γ
    .ok (.tuple ts)
  | .tupleProj head index, Γ => do
    let t ← head.inferType Γ
    t.tupleProjI index
  | .record fs, Γ => do
    let ts ← Expr.inferFields fs Γ
    .ok (.record ts)
  | .recordProj head label, Γ => do
    let t ← head.inferType Γ
    t.recordProjI label
  | .variant label e, Γ => do
    let t ← e.inferType Γ
    .ok (.union [(label, t)])
  | .seq es, Γ => do
    let t ← Expr.inferSeq es Γ .any
    .ok (.seq t)
  | .match_ head branches, Γ =>
    if branches.isEmpty then .err ()
    else do
      let th ← head.inferType Γ
      Expr.inferBranches branches Γ th .any
  | .destructure head pat body, Γ => do
    let th ← head.inferType Γ
    let Γ' ← pat.buildScope Γ th
    body.inferType Γ'
  | .lambda _ _, _ => .err ()
  | .intRel _ x y, Γ => do
    let t1 ← x.inferType Γ
    let t2 ← y.inferType Γ
    let t ← t1.unifyI t2
    t.needNumeric .bool
  | .arith op x y, Γ => do
    let t1 ← x.inferType Γ
    let t2 ← y.inferType Γ
    ValueType.arithI op t1 t2
  | .unary op x, Γ => do
    let t ← x.inferType Γ
    ValueType.unaryI op t
  | .asNum w x, Γ => do
    let t ← x.inferType Γ
    t.needNumeric (.u w)
  | .asChar x, Γ => do
    let t ← x.inferType Γ
    t.needNumeric (.base .char)
  | .fromBytes w _ x, Γ => do
    let t ← x.inferType Γ
    t.needBytes (w.bits / 8)
    .ok (.u w)
  | .seqLength x, Γ => do
    let t ← x.inferType Γ
    let _ ← t.elemI
    .ok (.u .b32)
  | .seqIx x index, Γ => do
    let ts ← x.inferType Γ
    let t ← ts.elemI
    let ti ← index.inferType Γ
    ti.needU32
    .ok t
  | .subSeq x start length, Γ => do
    let ts ← x.inferType Γ
    let t ← ts.elemI
    let t1 ← start.inferType Γ
    let t2 ← length.inferType Γ
    t1.needU32
    t2.needU32
    .ok (.seq t)
  | .subSeqInflate x start length, Γ => do
    let ts ← x.inferType Γ
    let t ← ts.elemI
    let t1 ← start.inferType Γ
    let t2 ← length.inferType Γ
    t1.needU32
    t2.needU32
    .ok (.seq t)
  | .flatMap f x, Γ =>
    match f with
    | .lambda name body => do
      let ts ← x.inferType Γ
      let t ← ts.elemI
      let tr ← body.inferType ((name, .value t) :: Γ)
      let t2 ← tr.elemI
      .ok (.seq t2)
    | _ => .err ()
  | .flatMapAccum f accum ty x, Γ =>
    match f with
    | .lambda name body => do
      let ts ← x.inferType Γ
      let t ← ts.elemI
      let t0 ← accum.inferType Γ
      let ta ← t0.unifyI ty
      let tr ← body.inferType ((name, .value (.tuple [ta, t])) :: Γ)
      match tr with
      | .tuple [tacc, .seq t2] => do
        let _ ← tacc.unifyI ta
        .ok (.seq t2)
      | _ => .err ()
    | _ => .err ()
  | .leftFold f accum ty x, Γ =>
    match f with
    | .lambda name body => do
      let ts ← x.inferType Γ
      let t ← ts.elemI
      let t0 ← accum.inferType Γ
      let ta ← t0.unifyI ty
      let tr ← body.inferType ((name, .value (.tuple [ta, t])) :: Γ)
      tr.unifyI ta
    | _ => .err ()
  | .findByKey _ f query x, Γ =>
    match f with
    | .lambda name body => do
      let ts ← x.inferType Γ
      let t ← ts.elemI
      let tq ← query.inferType Γ
      let tk ← body.inferType ((name, .value t) :: Γ)
      let tu ← tk.unifyI tq
      match tu with
      | .base b => if b.isNumeric then .ok (.option t) else .err ()
      | _ => .err ()
    | _ => .err ()
  | .flatMapList f ty x, Γ =>
    match f with
    | .lambda name body => do
      let ts ← x.inferType Γ
      let t ← ts.elemI
      let tr ← body.inferType ((name, .value (.tuple [.seq ty, t])) :: Γ)
      let t2 ← tr.elemI
      .ok (.seq t2)
    | _ => .err ()
  | .enumFromTo start stop, Γ => do
    let t1 ← start.inferType Γ
    let t2 ← stop.inferType Γ
    if t1.isNumeric then do
      let t ← t1.unifyI t2
      .ok (.seq t)
    else .err ()
  | .dup count x, Γ => do
    let tc ← count.inferType Γ
    tc.needU32
    let t ← x.inferType Γ
    .ok (.seq t)
  | .liftSome x, Γ => do
    let t ← x.inferType Γ
    .ok (.option t)
  | .liftNone, _ => .ok (.option .any)
  | .append x y, Γ => do
    let ts1 ← x.inferType Γ
    let ts2 ← y.inferType Γ
    let t1 ← ts1.elemI
    let t2 ← ts2.elemI
    let t ← t1.unifyI t2
    .ok (.seq t)

/-- the loop of `Expr::Tuple` (src/lib.rs:251-256) -/
def Expr.inferList : List Expr → TypeScope → Infer (List ValueType)
  | [], _ => .ok []
  | e :: es, Γ => do
    let t ← e.inferType Γ
    let ts ← Expr.inferList es Γ
    .ok (t :: ts)

/-- the loop of `Expr::Record` (src/lib.rs:262-267) -/
def Expr.inferFields : List (String × Expr) → TypeScope → Infer (List (String × ValueType))
  | [], _ => .ok []
  | (l, e) :: fs, Γ => do
    let t ← e.inferType Γ
    let ts ← Expr.inferFields fs Γ
    .ok ((l, t) :: ts)

/-- the loop of `Expr::Seq` (src/lib.rs:274-279) -/
def Expr.inferSeq : List Expr → TypeScope → ValueType → Infer ValueType
  | [], _, acc => .ok acc
  | e :: es, Γ, acc => do
    let t ← e.inferType Γ
    let acc' ← acc.unifyI t
    Expr.inferSeq es Γ acc'

/-- the loop of `Expr::Match` (src/lib.rs:285-294) with `infer_expr_branch_type`
(src/pattern.rs:154-163) -/
def Expr.inferBranches : List (Pattern × Expr) → TypeScope → ValueType → ValueType → Infer ValueType
  | [], _, _, acc => .ok acc
  | (p, e) :: rest, Γ, th, acc => do
    let Γ' ← p.buildScope Γ th
    let t ← e.inferType Γ'
    let acc' ← acc.unifyI t
    Expr.inferBranches rest Γ th acc'
end

/-- `ViewExpr::check_type` (src/lib.rs:805-823). -/
def ViewExpr.checkType (Γ : TypeScope) : ViewExpr → Infer Unit
  | .var name => do
    let k ← Γ.get name
    match k with
    | .view => .ok ()
    | .value _ => .err ()
    | .format _ => .err ()
  | .offset v e => do
    let t ← e.inferType Γ
    if t.isNumeric then v.checkType Γ else .err ()

/-- The `args` and `format_types` of a `FormatModule` (src/lib.rs:907-914): per item, the types of its
arguments and of its format. -/
structure ItemTypes where
  args : List ValueType
  format : ValueType

namespace ValueType

/-- the element type of `Huffman` code lengths (src/lib.rs:1271-1286) -/
def needLengths : ValueType → Infer Unit
  | .seq (.base (.num .b8)) => .ok ()
  | .seq (.base (.num .b16)) => .ok ()
  | _ => .err ()

/-- `ValueType::Base(BaseType::Bool)`, else the error -/
def needBool : ValueType → Infer Unit
  | .base .bool => .ok ()
  | _ => .err ()

/-- `ValueType::Base(b) if b.is_numeric()`, else the error -/
def needUnsigned : ValueType → Infer BitWidth
  | .base (.num w) => .ok w
  | _ => .err ()

end ValueType

/-- the loop over the arguments of an item (src/lib.rs:1039-1042) -/
def Expr.checkArgs (Γ : TypeScope) : List ValueType → List Expr → Infer Unit
  | ta :: tas, e :: es => do
    let t ← e.inferType Γ
    let _ ← ta.unifyI t
    Expr.checkArgs Γ tas es
  | _, _ => .ok ()

/-- `ValueType::Seq(U8)`, else the error (src/lib.rs:1046-1054) -/
def ValueType.needByteSeq : ValueType → Infer Unit
  | .seq (.base (.num .b8)) => .ok ()
  | _ => .err ()

mutual
/-- `FormatModule::infer_format_type` (src/lib.rs:1019-1358); the arms in the order of the constructors. -/
def Format.inferType (m : Module) (tys : List ItemTypes) : Format → TypeScope → Infer ValueType
  | .itemVar level args views, Γ => do
    let it ← Outcome.ofPanicky (m.get level)
    let ty ← Outcome.ofPanicky (Panicky.unwrap tys[level]?)
    if it.args.length = args.length then
      if it.views.length = views.length then do
        Expr.checkArgs Γ ty.args args
        .ok ty.format
      else .err ()
    else .err ()
  | .decodeBytes bytes f, Γ => do
    let t ← bytes.inferType Γ
    t.needByteSeq
    f.inferType m tys Γ
  | .parseFromView v f, Γ => do
    v.checkType Γ
    f.inferType m tys Γ
  | .fail, _ => .ok .empty
  | .skipRemainder, _ => .ok .unit
  | .endOfInput, _ => .ok .unit
  | .align _, _ => .ok .unit
  | .byte _, _ => .ok (.u .b8)
  | .variant label f, Γ => do
    let t ← f.inferType m tys Γ
    .ok (.union [(label, t)])
  | .union fs, Γ => Format.inferJoin m tys fs Γ .any
  | .unionNondet fs, Γ => Format.inferJoin m tys fs Γ .any
  | .tuple fs, Γ => do
    let ts ← Format.inferList m tys fs Γ
    .ok (.tuple ts)
  | .repeat_ f, Γ => do
    let t ← f.inferType m tys Γ
    .ok (.seq t)
  | .repeat1 f, Γ => do
    let t ← f.inferType m tys Γ
    .ok (.seq t)
  | .repeatCount count f, Γ => do
    let tc ← count.inferType Γ
    let _ ← tc.needUnsigned
    let t ← f.inferType m tys Γ
    .ok (.seq t)
  | .sequence fs, Γ => do
    let t ← Format.inferJoin m tys fs Γ .any
    .ok (.seq t)
  | .repeatBetween lo hi f, Γ => do
    let t1 ← lo.inferType Γ
    let w1 ← t1.needUnsigned
    let t2 ← hi.inferType Γ
    let w2 ← t2.needUnsigned
    if w1 = w2 then do
      let t ← f.inferType m tys Γ
      .ok (.seq t)
    else .err ()
  | .repeatUntilLast cond f, Γ =>
    match cond with
    | .lambda head body => do
      let t ← f.inferType m tys Γ
      let tr ← body.inferType ((head, .value t) :: Γ)
      tr.needBool
      .ok (.seq t)
    | _ => .err ()
  | .repeatUntilSeq cond f, Γ =>
    match cond with
    | .lambda head body => do
      let t ← f.inferType m tys Γ
      let tr ← body.inferType ((head, .value (.seq t)) :: Γ)
      tr.needBool
      .ok (.seq t)
    | _ => .err ()
  | .accumUntil done update init ty f, Γ =>
    match done with
    | .lambda head body => do
      let t ← f.inferType m tys Γ
      let t0 ← init.inferType Γ
      let _ ← t0.unifyI ty
      let Γ1 : TypeScope := (head, .value (.tuple [ty, .seq t])) :: Γ
      let tr ← body.inferType Γ1
      tr.needBool
      match update with
      | .lambda head' body' => do
        let tu ← body'.inferType ((head', .value (.tuple [ty, t])) :: Γ1)
        let _ ← tu.unifyI ty
        .ok (.tuple [ty, .seq t])
      | _ => .err ()
    | _ => .err ()
  | .maybe cond f, Γ => do
    let tc ← cond.inferType Γ
    tc.needBool
    let t ← f.inferType m tys Γ
    .ok (.option t)
  | .peek f, Γ => f.inferType m tys Γ
  | .peekNot _, _ => .ok .unit
  | .slice _ f, Γ => f.inferType m tys Γ
  | .bits f, Γ => f.inferType m tys Γ
  | .withRelativeOffset _ _ f, Γ => f.inferType m tys Γ
  | .map f e, Γ => do
    let t ← f.inferType m tys Γ
    match e with
    | .lambda name body => body.inferType ((name, .value t) :: Γ)
    | _ => .err ()
  | .where_ f e _, Γ => do
    let t ← f.inferType m tys Γ
    match e with
    | .lambda name body => do
      let tr ← body.inferType ((name, .value t) :: Γ)
      tr.needBool
      .ok t
    | _ => .err ()
  | .compute e, Γ => e.inferType Γ
  | .let_ name e f, Γ => do
    let t ← e.inferType Γ
    f.inferType m tys ((name, .value t) :: Γ)
  | .letView name f, Γ => f.inferType m tys ((name, .view) :: Γ)
  | .letFormat f name g, Γ => do
    let t ← f.inferType m tys Γ
    g.inferType m tys ((name, .value t) :: Γ)
  | .monadSeq f g, Γ => do
    let _ ← f.inferType m tys Γ
    g.inferType m tys Γ
  | .hint f, Γ => f.inferType m tys Γ
  | .enforce f, Γ => f.inferType m tys Γ
  | .permit f e, Γ => do
    let t0 ← e.inferType Γ
    let t ← f.inferType m tys Γ
    t0.unifyI t
  | .match_ head branches, Γ =>
    if branches.isEmpty then .err ()
    else do
      let th ← head.inferType Γ
      Format.inferBranches m tys branches Γ th .any
  | .dynamic name lengths _ f, Γ => do
    let tl ← lengths.inferType Γ
    tl.needLengths
    f.inferType m tys ((name, .format (.u .b16)) :: Γ)
  | .apply name, Γ => do
    let k ← Γ.get name
    match k with
    | .format t => .ok t
    | .view => .err ()
    | .value _ => .err ()
  | .pos, _ => .ok .numericHole
  | .forEach e label f, Γ => do
    let te ← e.inferType Γ
    let t ← te.elemI
    let ti ← f.inferType m tys ((label, .value t) :: Γ)
    .ok (.seq ti)
  | .liftedNone, _ => .ok (.option .any)
  | .liftedSome f, Γ => do
    let t ← f.inferType m tys Γ
    .ok (.option t)
  | .captureBytes v len, Γ => do
    v.checkType Γ
    let t ← len.inferType Γ
    t.needNumeric (.seq (.u .b8))
  | .readArray v len kind, Γ => do
    v.checkType Γ
    let t ← len.inferType Γ
    t.needNumeric (.seq (.u kind.width))
  | .reifyView v, Γ => do
    v.checkType Γ
    .ok .viewObj
  | .phantom f, Γ => do
    let t ← f.inferType m tys Γ
    .ok (.phantom t)

/-- the loop of `Format::Tuple` (src/lib.rs:1080-1086) -/
def Format.inferList (m : Module) (tys : List ItemTypes) : List Format → TypeScope → Infer (List ValueType)
  | [], _ => .ok []
  | f :: fs, Γ => do
    let t ← f.inferType m tys Γ
    let ts ← Format.inferList m tys fs Γ
    .ok (t :: ts)

/-- the loops of `Format::Union` and `Format::Sequence` (src/lib.rs:1073-1079, 1100-1106) -/
def Format.inferJoin (m : Module) (tys : List ItemTypes) :
    List Format → TypeScope → ValueType → Infer ValueType
  | [], _, acc => .ok acc
  | f :: fs, Γ, acc => do
    let t ← f.inferType m tys Γ
    let acc' ← acc.unifyI t
    Format.inferJoin m tys fs Γ acc'

/-- the loop of `Format::Match` (src/lib.rs:1256-1265) with `infer_format_branch_type`
(src/pattern.rs:175-185) -/
def Format.inferBranches (m : Module) (tys : List ItemTypes) :
    List (Pattern × Format) → TypeScope → ValueType → ValueType → Infer ValueType
  | [], _, _, acc => .ok acc
  | (p, f) :: rest, Γ, th, acc => do
    let Γ' ← p.buildScope Γ th
    let t ← f.inferType m tys Γ'
    let acc' ← acc.unifyI t
    Format.inferBranches m tys rest Γ th acc'
end

/-- the scope in which the format of an item is typed (src/lib.rs:953-959) -/
def TypeScope.ofItem (args : List (String × ValueType)) (views : List String) : TypeScope :=
  (views.map fun x => (x, .view)).reverse ++ (args.map fun a => (a.1, .value a.2)).reverse

/-- `FormatModule::define_format_args_views` (src/lib.rs:946-971), of which `define_format`,
`define_format_args` and `define_format_views` (926-944) are special cases; a failed inference is a
panic. -/
def Module.define (m : Module) (tys : List ItemTypes) (args : List (String × ValueType))
    (views : List String) (f : Format) : Panicky (Module × List ItemTypes) :=
  match f.inferType m tys (TypeScope.ofItem args views) with
  | .ok t =>
    .ok (⟨m.items ++ [⟨args.map (·.1), views, f⟩]⟩, tys ++ [⟨args.map (·.2), t⟩])
  | _ => .panic

end Doodle
