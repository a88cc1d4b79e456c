import Verif.Model.NumEval
import Verif.Model.Inference
import Verif.Model.Outcome

/-! Model of /repo/src/numeric/codegen.rs: the Rust code generated for numeric expressions, and what that code does
when it calls the helpers of src/numeric/eval.rs (Model/NumEval). -/

namespace Doodle
namespace Num
namespace Codegen

open Tc (TypedExpr)

/-- `BinOpClass<PrimInt>` (src/numeric/codegen.rs:21-32). -/
inductive BinOpClass where
  | pure (t : MachineRep)
  | homWide (t o : MachineRep)
  | hetWide (l r o : MachineRep)
  | homLossy (t o : MachineRep)
  | hetLossy (l r o : MachineRep)
deriving DecidableEq, Repr

/-- `UnaryOpClass<PrimInt>` (src/numeric/codegen.rs:36-40). -/
inductive UnaryOpClass where
  | pure (t : MachineRep)
  | nonLossy (i o : MachineRep)
  | lossy (i o : MachineRep)
deriving DecidableEq, Repr

/-- `classify_binary` (src/numeric/codegen.rs:58-81); `&&` does not look at its right operand when the left is false. -/
def classifyBinary (l r o : MachineRep) : Panicky BinOpClass :=
  if l = r then
    if o = l then .ok (.pure l)
    else (o.encompasses l).bind fun b => .ok (if b then .homWide l o else .homLossy l o)
  else
    (o.encompasses l).bind fun b =>
      if b then (o.encompasses r).bind fun b' => .ok (if b' then .hetWide l r o else .hetLossy l r o)
      else .ok (.hetLossy l r o)

/-- `MachineRep::compare_width` (src/numeric/core.rs:360-362) equal to or greater than -/
def widthGe (a b : MachineRep) : Bool := decide (b.bitWidth.rank ≤ a.bitWidth.rank)

/-- `absval_is_nonlossy` (src/numeric/codegen.rs:161-171). -/
def absvalNonlossy (source target : MachineRep) : Panicky Bool :=
  if source.isSigned then .ok (widthGe target source) else target.encompasses source

/-- `negate_is_nonlossy` (src/numeric/codegen.rs:173-184). -/
def negateNonlossy (source target : MachineRep) : Panicky Bool :=
  if source.isSigned then .ok (widthGe target source) else .ok true

/-- `classify_unary` (src/numeric/codegen.rs:99-158) with `succ_is_nonlossy` and `pred_is_nonlossy`
(src/numeric/codegen.rs:186-192); no operation is a cast. -/
def classifyUnary (op : Option BasicUnaryOp) (i o : MachineRep) : Panicky UnaryOpClass :=
  if i = o then .ok (.pure i)
  else
    (match op with
      | none => o.encompasses i
      | some .absVal => absvalNonlossy i o
      | some .negate => negateNonlossy i o
      | some .intPred => o.encompasses i
      | some .intSucc => o.encompasses i).bind fun b => .ok (if b then .nonLossy i o else .lossy i o)

/-- first part of the name of a helper (src/numeric/codegen.rs:198-204, 222-227, 238) -/
inductive Base where
  | add | sub | mul | div | rem | neg | abs | pred | succ | cast
deriving DecidableEq, Repr

/-- The name of a helper: the first part and the names of types, joined by `_`
(src/numeric/codegen.rs:197-246).  The parts are kept apart here; no part has a `_` in it, so different parts give
different names. -/
structure FName where
  base : Base
  types : List MachineRep
deriving DecidableEq, Repr

/-- the first part of the name for a binary operation (src/numeric/codegen.rs:198-204) -/
def binBase : BasicBinOp → Base
  | .add => .add
  | .sub => .sub
  | .mul => .mul
  | .div => .div
  | .rem => .rem

/-- the first part of the name for a unary operation (src/numeric/codegen.rs:222-227) -/
def unBase : BasicUnaryOp → Base
  | .negate => .neg
  | .absVal => .abs
  | .intPred => .pred
  | .intSucc => .succ

/-- `induce_binary_fname` (src/numeric/codegen.rs:197-219). -/
def binFName (op : BasicBinOp) : BinOpClass → FName
  | .pure t => ⟨binBase op, [t]⟩
  | .homWide t o | .homLossy t o => ⟨binBase op, [t, o]⟩
  | .hetWide l r o | .hetLossy l r o => ⟨binBase op, [l, r, o]⟩

/-- `induce_unary_fname` (src/numeric/codegen.rs:221-235). -/
def unFName (op : BasicUnaryOp) : UnaryOpClass → FName
  | .pure t => ⟨unBase op, [t]⟩
  | .nonLossy i o | .lossy i o => ⟨unBase op, [i, o]⟩

/-- `induce_cast_fname` (src/numeric/codegen.rs:237-246); the pure class is `unreachable!`. -/
def castFName : UnaryOpClass → Panicky FName
  | .pure _ => .panic
  | .nonLossy i o | .lossy i o => .ok ⟨.cast, [i, o]⟩

/-- The Rust expressions that `synthesize` makes (src/numeric/codegen.rs:301-422): a variable; a literal with its
suffix; `f(a).eval()?` and `f(a, b).eval()?`; the calls of the two fallbacks, `eval_fallback<..>(a, b, hint, |x, y| ..)`
with a method of `BigInt` (src/numeric/codegen.rs:271-299) and `eval_unary_fallback<..>(a, hint, |x| ..)` with `Neg::neg`,
`Signed::abs`, `Numeric::pred` or `Numeric::succ` (src/numeric/codegen.rs:248-269); `a as t`.  The text printed for the two
fallbacks has no `::` before the type parameters (src/codegen/rust_ast/mod.rs:2830-2845), which Rust does not accept in
an expression; the model takes the tree as what was meant. -/
inductive Code where
  | var (x : String)
  | lit (n : Int) (t : MachineRep)
  | call (f : FName) (a : Code)
  | call2 (f : FName) (a b : Code)
  | fallback (i o : MachineRep) (hint : FName) (op : BasicUnaryOp) (a : Code)
  | fallback2 (l r o : MachineRep) (hint : FName) (op : BasicBinOp) (a b : Code)
  | asCast (a : Code) (t : MachineRep)
deriving DecidableEq, Repr

/-- `synthesize` (src/numeric/codegen.rs:301-422), for trees that have an integer type at every node (the panics of
`coerce` and `try_to_num_type` are for other types). -/
def synthesize : TypedExpr → Panicky Code
  | .numVar _ x => .ok (.var x)
  | .const t c => .ok (.lit c.val t)
  | .binOp _ sig op _ l r =>
    (synthesize l).bind fun a => (synthesize r).bind fun b =>
      (classifyBinary sig.1.1 sig.1.2 sig.2).bind fun cls =>
        match cls with
        | .pure _ | .homWide _ _ | .hetWide _ _ _ => .ok (.call2 (binFName op cls) a b)
        | .homLossy t0 t2 => .ok (.fallback2 t0 t0 t2 (binFName op cls) op a b)
        | .hetLossy t0 t1 t2 => .ok (.fallback2 t0 t1 t2 (binFName op cls) op a b)
  | .unaryOp _ sig op _ e =>
    (synthesize e).bind fun a =>
      (classifyUnary (some op) sig.1 sig.2).bind fun cls =>
        match cls with
        | .pure _ | .nonLossy _ _ => .ok (.call (unFName op cls) a)
        | .lossy t0 t1 => .ok (.fallback t0 t1 (unFName op cls) op a)
  | .cast _ sig _ bitwise e =>
    (synthesize e).bind fun a =>
      if bitwise then .ok (.asCast a sig.2)
      else
        (classifyUnary none sig.1 sig.2).bind fun cls =>
          match cls with
          | .pure _ => .ok a
          | .nonLossy _ _ | .lossy _ _ => (castFName cls).bind fun f => .ok (.call f a)

/-! ### the helpers, by name -/

/-- a helper with two arguments: the types of the arguments and of the result, and the body -/
structure Helper2 where
  l : MachineRep
  r : MachineRep
  o : MachineRep
  body : Int → Int → Panicky Eval

/-- a helper with one argument -/
structure Helper1 where
  i : MachineRep
  o : MachineRep
  body : Int → Panicky Eval

/-- the body that the macros give to the operations (src/numeric/eval.rs:98-207) -/
def binBody (base : Base) (o : MachineRep) : Option (Int → Int → Panicky Eval) :=
  match base with
  | .add => some (evalBin .add o)
  | .sub => some (evalBin .sub o)
  | .mul => some (evalBin .mul o)
  | .div => some fun l r => .ok (evalQuot .div o l r)
  | .rem => some fun l r => .ok (evalQuot .rem o l r)
  | _ => none

/-- the signature that the name of a binary helper stands for (src/numeric/eval.rs:212-534): `add_u8` is a row of
`homogenous!`, `add_u8_u16` one of `widening!`, `add_u8_i8_i16` one of `mixed_widening!` -/
def binSig : List MachineRep → Option (MachineRep × MachineRep × MachineRep)
  | [t] => if (t, t, t) ∈ homogenousTable then some (t, t, t) else none
  | [t, o] => if (t, t, o) ∈ wideningTable then some (t, t, o) else none
  | [l, r, o] => if (l, r, o) ∈ mixedTable then some (l, r, o) else none
  | _ => none

/-- the binary helper of a name, if there is one (src/numeric/eval.rs:212-534) -/
def helper2 (f : FName) : Option Helper2 :=
  match binSig f.types with
  | none => none
  | some (l, r, o) => (binBody f.base o).map fun body => ⟨l, r, o, body⟩

/-- the unary helper of a name, if there is one (src/numeric/eval.rs:708-794, 869-888); there is none for `pred` and
`succ`.  `dbg` is whether overflow is checked. -/
def helper1 (dbg : Bool) (f : FName) : Option Helper1 :=
  match f.base, f.types with
  | .neg, [t] =>
    if (t, t) ∈ negSameTable then some ⟨t, t, negAsSigned dbg t⟩
    else if (t, t) ∈ negUnsignedTable then some ⟨t, t, fun x => .ok (negUnsigned x)⟩
    else none
  | .neg, [i, o] =>
    if i = o then none
    else if (i, o) ∈ negAsSignedTable then some ⟨i, o, negAsSigned dbg o⟩
    else if (i, o) ∈ negUnsignedTable then some ⟨i, o, fun x => .ok (negUnsigned x)⟩
    else if (i, o) ∈ negIntoUnsignedTable then some ⟨i, o, negIntoUnsigned dbg i o⟩
    else none
  | .abs, [t] =>
    if (t, t) ∈ absSameTable then some ⟨t, t, absSigned dbg t⟩
    else if (t, t) ∈ absUnsignedTable then some ⟨t, t, fun x => .ok (absUnsigned t x)⟩
    else none
  | .abs, [i, o] =>
    if i = o then none
    else if (i, o) ∈ absAsSignedTable then some ⟨i, o, absAsSigned dbg o⟩
    else if (i, o) ∈ absSignedUnsignedTable then some ⟨i, o, absSignedUnsigned dbg i o⟩
    else if (i, o) ∈ absUnsignedTable then some ⟨i, o, fun x => .ok (absUnsigned o x)⟩
    else none
  | .cast, [i, o] =>
    if (i, o) ∈ directCastTable then some ⟨i, o, fun x => .ok (directCast o x)⟩
    else if (i, o) ∈ attemptCastTable then some ⟨i, o, fun x => .ok (attemptCast o x)⟩
    else none
  | _, _ => none

/-! ### what Rust makes of the code -/

/-- The type that Rust gives to the code, `none` if it does not compile: a helper that does not exist, an argument of
another type, a literal out of the range of its type (the lint `overflowing_literals` is an error by default), and the
trait `Numeric`, which does not exist (src/numeric/codegen.rs:253). -/
def Code.typeOf (vars : String → Option MachineRep) : Code → Option MachineRep
  | .var x => vars x
  | .lit n t => if t.inRange n then some t else none
  | .call f a =>
    match helper1 true f, a.typeOf vars with
    | some h, some i => if i = h.i then some h.o else none
    | _, _ => none
  | .call2 f a b =>
    match helper2 f, a.typeOf vars, b.typeOf vars with
    | some h, some l, some r => if l = h.l ∧ r = h.r then some h.o else none
    | _, _, _ => none
  | .fallback i o _ op a =>
    match op with
    | .negate | .absVal => if a.typeOf vars = some i then some o else none
    | .intPred | .intSucc => none
  | .fallback2 l r o _ _ a b => if a.typeOf vars = some l ∧ b.typeOf vars = some r then some o else none
  | .asCast a t => if (a.typeOf vars).isSome then some t else none

/-- `EvalError` (src/numeric/eval.rs:63-66), which `?` turns into a parse error -/
inductive EvalErr where
  | indirect (n : Int)
  | notANumber
deriving DecidableEq, Repr

/-- `Eval::eval` (src/numeric/eval.rs:81-90). -/
def Eval.result : Eval → Outcome EvalErr Int
  | .nan => .err .notANumber
  | .direct n => .ok n
  | .indirect n => .err (.indirect n)

/-- the closure of a unary fallback on `BigInt` (src/numeric/codegen.rs:248-269) -/
def bigUnary : BasicUnaryOp → Int → Int
  | .negate, x => -x
  | .absVal, x => x.natAbs
  | .intPred, x => x - 1
  | .intSucc, x => x + 1

/-- What the code does.  A call of a helper that does not exist is a panic here, but such code has no type. -/
def Code.run (dbg : Bool) (env : String → Int) : Code → Outcome EvalErr Int
  | .var x => .ok (env x)
  | .lit n _ => .ok n
  | .call f a => do
    let x ← a.run dbg env
    match helper1 dbg f with
    | some h => (Outcome.ofPanicky (h.body x)).bind Eval.result
    | none => .panic
  | .call2 f a b => do
    let x ← a.run dbg env
    let y ← b.run dbg env
    match helper2 f with
    | some h => (Outcome.ofPanicky (h.body x y)).bind Eval.result
    | none => .panic
  | .fallback _ o _ op a => do
    let x ← a.run dbg env
    Eval.result (evalUnaryFallback (bigUnary op) o x)
  | .fallback2 _ _ o _ op a b => do
    let x ← a.run dbg env
    let y ← b.run dbg env
    Eval.result (evalFallback op o x y)
  | .asCast a t => do
    let x ← a.run dbg env
    .ok (rustAs t x)

end Codegen
end Num
end Doodle
