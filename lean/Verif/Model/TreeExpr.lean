import Verif.Model.Printer

/-! Model of the printing of expressions in tree views of formats and values (/repo/src/output/tree.rs, `compile_expr`), as
sequences of tokens: where it writes parentheses.  Arguments between parentheses, and everything the printer leaves out
(components of tuples, fields, elements, branches), stay inside one token. -/

namespace Doodle
namespace TreeExpr

open Prec Reading Printer

/-- the constants `ARROW`, `MATCH` (src/precedence.rs:270-271) -/
abbrev ARROW : Precedence := .calculus .lambda
@[inherit_doc ARROW] abbrev MATCH : Precedence := .calculus .match_

/-- the constant `FUN_APPLICATION`, also `NUMERIC_PREFIX` and `CAST_PREFIX` (src/precedence.rs:281, 284, 286) -/
abbrev PREFIX : Precedence := .mono .prefix_

/-- infix operators (src/output/tree.rs:1845-1949, 2075-2086) -/
inductive Bin where
  | arith (op : Arith)
  | rel (r : IntRel)
  | append
  | range
deriving DecidableEq, Repr

/-- what is written before an operand: the name of the operation with its arguments between parentheses, or the binder of a
function (src/output/tree.rs:1838-1845, 1950-2074, 2087-2091) -/
inductive Pre where
  | lambda (name : String)
  | unary (op : UnaryOp)
  | asNum (w : Num.BitWidth)
  | asChar
  | fromBytes (w : Num.BitWidth) (be : Bool)
  | seqLength
  | seqIx (index : Expr)
  | subSeq (start length : Expr)
  | subSeqInflate (start length : Expr)
  | flatMap (f : Expr)
  | flatMapAccum (f accum : Expr) (ty : ValueType)
  | leftFold (f accum : Expr) (ty : ValueType)
  | findByKey (sorted : Bool) (f query : Expr)
  | flatMapList (f : Expr) (ty : ValueType)
  | dup (count : Expr)
  | some

/-- projections (src/output/tree.rs:2093-2108) -/
inductive Post where
  | tupleProj (index : Nat)
  | recordProj (label : String)
deriving DecidableEq, Repr

/-- An expression as an operator tree.  Matches are leaves: the text of the head stands between `match` and a brace.  So are
`Destructure`, which ends with an operand that is printed with the precedence of the whole, and numeric expressions. -/
def ofExpr : Expr → Tree Expr Bin Pre Post
  | .arith op x y => .bin (.arith op) (ofExpr x) (ofExpr y)
  | .intRel r x y => .bin (.rel r) (ofExpr x) (ofExpr y)
  | .append x y => .bin .append (ofExpr x) (ofExpr y)
  | .enumFromTo x y => .bin .range (ofExpr x) (ofExpr y)
  | .lambda x e => .pre (.lambda x) (ofExpr e)
  | .unary op x => .pre (.unary op) (ofExpr x)
  | .asNum w x => .pre (.asNum w) (ofExpr x)
  | .asChar x => .pre .asChar (ofExpr x)
  | .fromBytes w be x => .pre (.fromBytes w be) (ofExpr x)
  | .seqLength s => .pre .seqLength (ofExpr s)
  | .seqIx s i => .pre (.seqIx i) (ofExpr s)
  | .subSeq s i n => .pre (.subSeq i n) (ofExpr s)
  | .subSeqInflate s i n => .pre (.subSeqInflate i n) (ofExpr s)
  | .flatMap f s => .pre (.flatMap f) (ofExpr s)
  | .flatMapAccum f a t s => .pre (.flatMapAccum f a t) (ofExpr s)
  | .leftFold f a t s => .pre (.leftFold f a t) (ofExpr s)
  | .findByKey b f q s => .pre (.findByKey b f q) (ofExpr s)
  | .flatMapList f t s => .pre (.flatMapList f t) (ofExpr s)
  | .dup n x => .pre (.dup n) (ofExpr x)
  | .liftSome x => .pre .some (ofExpr x)
  | .tupleProj x i => .post (.tupleProj i) (ofExpr x)
  | .recordProj x l => .post (.recordProj l) (ofExpr x)
  | e => .atom e

/-- the cut-off of infix operators (src/output/tree.rs:1845-1949, 2075-2086) -/
def Bin.own : Bin → Precedence
  | .rel _ => .COMPARE
  | .arith .add => .ADD_SUB
  | .arith .sub => .ADD_SUB
  | .arith .mul => .MUL
  | .arith .div => .DIV_REM
  | .arith .rem => .DIV_REM
  | .arith .bitAnd => .BITAND
  | .arith .bitOr => .BITOR
  | .arith .boolAnd => .LOGICAL_AND
  | .arith .boolOr => .LOGICAL_OR
  | .arith .shl => .BIT_SHIFT
  | .arith .shr => .BIT_SHIFT
  | .append => .ADD_SUB
  | .range => PREFIX

/-- the precedence that operands of infix operators are rendered with (src/output/tree.rs:1845-1949, 2075-2086) -/
def Bin.inner : Bin → Precedence
  | .rel .eq => .EQUALITY
  | .rel .ne => .EQUALITY
  | .rel _ => .COMPARE
  | .arith .boolAnd => .BITAND
  | .arith .boolOr => .BITOR
  | o => o.own

/-- The precedences of `compile_expr` (src/output/tree.rs:1816-2130) and `prefix_op` (src/output/tree.rs:1753-1775). -/
def treeStyle : Style Expr Bin Pre Post where
  atomOwn := fun e => match e with
    | .match_ _ _ => some MATCH
    | .destructure _ _ _ => some MATCH
    | .numeric n => numStyle.own (ofNum n)
    | _ => none
  binOwn := Bin.own
  bin := Bin.inner
  preOwn := fun o => match o with
    | .lambda _ => some ARROW
    | _ => some PREFIX
  preInner := fun o => match o with
    | .lambda _ => ARROW
    | _ => .ATOM
  postOwn := fun _ => some .projection
  postInner := fun _ => .projection

/-- `compile_expr` (src/output/tree.rs:1816-2130) -/
def tokens (e : Expr) (current : Precedence) : List (Tok Expr Bin Pre Post) := treeStyle.print (ofExpr e) current

end TreeExpr
end Doodle
