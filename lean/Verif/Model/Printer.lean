import Verif.Model.Precedence
import Verif.Model.NumCore
import Verif.Model.Expr
import Verif.Spec.Reading

/-! Model of the printers that decide on parentheses with `cond_paren`: the numeric-expression printer
(/repo/src/numeric/printer.rs) and the printer of generated Rust expressions
(/repo/src/codegen/rust_ast/mod.rs).  Both are the same function, `print`, of a table giving each operator
the precedence at which its operands are rendered and the precedence it compares against.  The printer of expressions in
tree views (Model/TreeExpr.lean) is a third instance. -/

namespace Doodle
namespace Printer

open Prec Reading

/-- How a printer treats the nodes of a tree: `own` is the cut-off handed to `cond_paren` (absent where
the printer never calls it), `inner` (for infix operators `bin`) the precedence operands are rendered with. -/
structure Style (α β π ρ : Type) where
  atomOwn : α → Option Precedence
  binOwn : β → Precedence
  bin : β → Precedence
  preOwn : π → Option Precedence
  preInner : π → Precedence
  postOwn : ρ → Option Precedence
  postInner : ρ → Precedence

variable {α β π ρ : Type}

/-- the cut-off of the node at the root -/
def Style.own (S : Style α β π ρ) : Tree α β π ρ → Option Precedence
  | .atom a => S.atomOwn a
  | .bin o _ _ => some (S.binOwn o)
  | .pre o _ => S.preOwn o
  | .post o _ => S.postOwn o

/-- `cond_paren` (src/precedence.rs:311-318), on tokens. -/
def condParen (own : Option Precedence) (current : Precedence) (ts : List (Tok α β π ρ)) :
    List (Tok α β π ρ) :=
  match own with
  | none => ts
  | some cutoff => if needsParen current cutoff then .lp :: (ts ++ [.rp]) else ts

/-- `compile_expr` (src/numeric/printer.rs:132-175) and `RustOp::to_fragment_precedence`,
`RustExpr::to_fragment_precedence` (src/codegen/rust_ast/mod.rs:3435-3465, 2872-3030), as sequences of
tokens. -/
def Style.print (S : Style α β π ρ) : Tree α β π ρ → Precedence → List (Tok α β π ρ)
  | .atom a, current => condParen (S.atomOwn a) current [.atom a]
  | .bin o l r, current =>
    condParen (some (S.binOwn o)) current (S.print l (S.bin o) ++ .bin o :: S.print r (S.bin o))
  | .pre o e, current => condParen (S.preOwn o) current (.pre o :: S.print e (S.preInner o))
  | .post o e, current => condParen (S.postOwn o) current (S.print e (S.postInner o) ++ [.post o])

/-! ### numeric expressions -/

/-- the leaves of a numeric expression -/
inductive NumAtom where
  | const (c : Num.TypedConst)
  | numVar (name : String)
deriving DecidableEq, Repr

/-- `BinOp` (src/numeric/core.rs:764-771) -/
structure NumBin where
  op : Num.BasicBinOp
  outRep : Option Num.MachineRep
deriving DecidableEq, Repr

/-- `UnaryOp` (src/numeric/core.rs:847-854) -/
structure NumUn where
  op : Num.BasicUnaryOp
  outRep : Option Num.MachineRep
deriving DecidableEq, Repr

/-- `CastOp` (src/numeric/core.rs:898-904) -/
structure NumCast where
  outRep : Num.MachineRep
  bitwise : Bool
deriving DecidableEq, Repr

abbrev NumTok := Tok NumAtom NumBin NumUn NumCast
abbrev NumTree := Tree NumAtom NumBin NumUn NumCast

/-- A numeric expression as an operator tree (only the constructors are renamed). -/
def ofNum : Num.Expr → NumTree
  | .const c => .atom (.const c)
  | .binOp op rep l r => .bin ⟨op, rep⟩ (ofNum l) (ofNum r)
  | .unaryOp op rep e => .pre ⟨op, rep⟩ (ofNum e)
  | .cast rep bw e => .post ⟨rep, bw⟩ (ofNum e)
  | .numVar x => .atom (.numVar x)

/-- the precedence of infix operators in `compile_expr` (src/numeric/printer.rs:132-161) -/
def NumBin.precedence (o : NumBin) : Precedence := match o.op with
  | .add => .ADD_SUB
  | .sub => .ADD_SUB
  | .mul => .MUL
  | .div => .DIV_REM
  | .rem => .DIV_REM

/-- The precedences of `compile_expr` (src/numeric/printer.rs:132-175). -/
def numStyle : Style NumAtom NumBin NumUn NumCast where
  atomOwn := fun _ => none
  binOwn := NumBin.precedence
  bin := NumBin.precedence
  preOwn := fun o => match o.op with
    | .intPred => some .INVOKE
    | .intSucc => some .INVOKE
    | .negate => some .UNARY
    | .absVal => some .UNARY
  preInner := fun o => match o.op with
    | .intPred => .INVOKE
    | .intSucc => .INVOKE
    | .negate => .UNARY
    | .absVal => .UNARY
  postOwn := fun _ => some .CAST
  postInner := fun _ => .CAST

/-- `MachineRep::to_static_str` (src/numeric/core.rs:179-195). -/
def repStr : Num.MachineRep → String
  | ⟨true, .b8⟩ => "i8"
  | ⟨true, .b16⟩ => "i16"
  | ⟨true, .b32⟩ => "i32"
  | ⟨true, .b64⟩ => "i64"
  | ⟨false, .b8⟩ => "u8"
  | ⟨false, .b16⟩ => "u16"
  | ⟨false, .b32⟩ => "u32"
  | ⟨false, .b64⟩ => "u64"

/-- the text of an atom: `Display` of `TypedConst` (src/numeric/core.rs:411-417), a variable name. -/
def NumAtom.text : NumAtom → String
  | .const ⟨v, .auto⟩ => toString v ++ "?"
  | .const ⟨v, .concrete m⟩ => toString v ++ repStr m
  | .numVar x => x

/-- `compile_bin_op` (src/numeric/printer.rs:21-38). -/
def NumBin.text (o : NumBin) : String :=
  " " ++ (match o.op with | .add => "+" | .sub => "-" | .mul => "*" | .div => "/" | .rem => "%") ++
    (match o.outRep with | some m => repStr m | none => "") ++ " "

/-- `compile_unary_op` (src/numeric/printer.rs:99-115). -/
def NumUn.text (o : NumUn) : String :=
  (match o.op with | .negate => "~" | .absVal => "abs" | .intSucc => "++" | .intPred => "--") ++
    (match o.outRep with | some m => repStr m ++ " " | none => "")

/-- the suffix written by `compile_cast_op` (src/numeric/printer.rs:79-98). -/
def NumCast.text (o : NumCast) : String :=
  (if o.bitwise then " as(rust) " else " as ") ++ repStr o.outRep

/-- the text of a token -/
def tokText : NumTok → String
  | .atom a => a.text
  | .bin o => o.text
  | .pre o => o.text
  | .post o => o.text
  | .lp => "("
  | .rp => ")"

/-- the text of a sequence of tokens -/
def text : List NumTok → String
  | [] => ""
  | t :: ts => tokText t ++ text ts

/-- `show_expr` (src/numeric/printer.rs:177-179) before the tokens are written out -/
def showTokens (e : Num.Expr) : List NumTok := numStyle.print (ofNum e) .TOP

/-- `show_expr` (src/numeric/printer.rs:177-179). -/
def showExpr (e : Num.Expr) : String := text (showTokens e)

/-! ### generated Rust expressions -/

/-- `InfixOperator` (src/codegen/rust_ast/mod.rs:3230-3249). -/
inductive InfixOperator where
  | eq | neq | lt | lte | gt | gte | div | rem | add | sub | mul | shl | shr | bitOr | bitAnd | boolOr | boolAnd
deriving DecidableEq, Repr

/-- `InfixOperator::precedence` (src/codegen/rust_ast/mod.rs:3273-3290). -/
def InfixOperator.precedence : InfixOperator → Precedence
  | .eq => .EQUALITY
  | .neq => .EQUALITY
  | .lt => .COMPARE
  | .lte => .COMPARE
  | .gt => .COMPARE
  | .gte => .COMPARE
  | .div => .DIV_REM
  | .rem => .DIV_REM
  | .add => .ADD_SUB
  | .sub => .ADD_SUB
  | .mul => .MUL
  | .shl => .BIT_SHIFT
  | .shr => .BIT_SHIFT
  | .bitOr => .BITOR
  | .bitAnd => .BITAND
  | .boolAnd => .LOGICAL_AND
  | .boolOr => .LOGICAL_OR

/-- prefix operators: `PrefixOp(BoolNot)`, `Owned(Deref)`, `Borrow`
(src/codegen/rust_ast/mod.rs:3448-3453, 2932-2935, 2979-2984) -/
inductive RPre where
  | boolNot | deref | borrow
deriving DecidableEq, Repr

/-- postfix forms: `AsCast` to `u8` .. `u64`, and the projections `MethodCall`, `FieldAccess`, `Try`,
`Index` with the text between their delimiters (src/codegen/rust_ast/mod.rs:3454-3460, 2886-2892,
2949-2951, 2985-2987, 3008-3011) -/
inductive RPost where
  | asCast (w : Num.BitWidth)
  | methodCall (text : String)
  | fieldAccess (name : String)
  | try_
  | index (text : String)
deriving DecidableEq, Repr

/-- The precedences of `RustOp::to_fragment_precedence` and `RustExpr::to_fragment_precedence`
(src/codegen/rust_ast/mod.rs:3435-3465, 2872-3030).  `AsCast` renders its operand with `to_fragment`,
which is `Precedence::Atomic` (3033-3037).  Atoms are the expressions printed as a unit, with everything
inside them rendered between delimiters: entities, literals, macros, tuples, which are never
parenthesised, and calls (`Invoke`, `FunctionCall` of a name, `ResultOk`, `ResultErr`) with cut-off
`INVOKE`; `atomOwn` says which is which. -/
def rustStyle {α : Type} (atomOwn : α → Option Precedence) : Style α InfixOperator RPre RPost where
  atomOwn := atomOwn
  binOwn := InfixOperator.precedence
  bin := InfixOperator.precedence
  preOwn := fun o => match o with
    | .boolNot => some .LOGICAL_NEGATE
    | .deref => none
    | .borrow => none
  preInner := fun _ => .mono .prefix_
  postOwn := fun o => match o with
    | .asCast _ => some .CAST_INFIX
    | .methodCall _ => some .projection
    | _ => none
  postInner := fun o => match o with
    | .asCast _ => .ATOM
    | _ => .projection

/-- The operator chosen by `embed_expr` for `Arith` (src/codegen/mod.rs:1122-1149); `Sub` becomes a call
of `try_sub!`. -/
def infixOfArith : Arith → Option InfixOperator
  | .bitAnd => some .bitAnd
  | .bitOr => some .bitOr
  | .boolAnd => some .boolAnd
  | .boolOr => some .boolOr
  | .add => some .add
  | .sub => none
  | .mul => some .mul
  | .div => some .div
  | .rem => some .rem
  | .shl => some .shl
  | .shr => some .shr

/-- The operator chosen by `embed_expr` for `IntRel` (src/codegen/mod.rs:1166-1173). -/
def infixOfRel : IntRel → InfixOperator
  | .eq => .eq
  | .ne => .neq
  | .lt => .lt
  | .gt => .gt
  | .lte => .lte
  | .gte => .gte

/-- `embed_expr` (src/codegen/mod.rs:1113-1215) on operators, `!` and casts; every other expression is a
leaf. -/
def embed : Expr → Tree Expr InfixOperator RPre RPost
  | .arith op x y =>
    match infixOfArith op with
    | some o => .bin o (embed x) (embed y)
    | none => .atom (.arith op x y)
  | .intRel r x y => .bin (infixOfRel r) (embed x) (embed y)
  | .unary .boolNot x => .pre .boolNot (embed x)
  | .asNum w x => .post (.asCast w) (embed x)
  | e => .atom e

/-- The cut-off of the code generated for a leaf: calls (`try_sub!`, `succ`, `pred`, `u16be`, ..) have
`INVOKE`, `.len() as u32` has `CAST_INFIX`, names, literals and projections none
(src/codegen/mod.rs:1090-1235).  The remaining kinds of expression (matches, blocks, nested numeric
expressions) are treated as names, though their text need not be a unit. -/
def leafOwn : Expr → Option Precedence
  | .arith _ _ _ => some .INVOKE
  | .unary _ _ => some .INVOKE
  | .fromBytes _ _ _ => some .INVOKE
  | .seqLength _ => some .CAST_INFIX
  | _ => none

/-- The tokens of the Rust code generated for an expression. -/
def rustTokens (e : Expr) : List (Tok Expr InfixOperator RPre RPost) :=
  (rustStyle leafOwn).print (embed e) .TOP

end Printer
end Doodle
