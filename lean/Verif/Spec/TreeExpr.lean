import Verif.Model.TreeExpr

/-!
Specification vocabulary for expressions in tree views: how their operators are read, and the expressions whose grouping survives
printing.
-/

namespace Doodle
namespace TreeExpr

open Prec Reading Printer

/-- The usual rules: projections, then operations written before their operand, then `..`, `* / %`, `+ - ++`, shifts, `&`, `|`,
comparisons (which cannot be chained), `&&`, `||`; the body of a function reaches as far as possible. -/
def treeRules : Rules Bin Pre Post where
  level := fun o => match o with
    | .range => 12
    | .arith .mul => 11 | .arith .div => 11 | .arith .rem => 11
    | .arith .add => 10 | .arith .sub => 10 | .append => 10
    | .arith .shl => 9 | .arith .shr => 9
    | .arith .bitAnd => 8
    | .arith .bitOr => 7
    | .rel _ => 6
    | .arith .boolAnd => 5
    | .arith .boolOr => 4
  unchained := fun o => match o with
    | .rel _ => true
    | _ => false
  far := fun o => match o with
    | .lambda _ => true
    | _ => false
  near := fun _ => true

/-- kinds of infix operators -/
inductive Class where
  | range | mul | divRem | addSub | shift | bitAnd | bitOr | equality | order | logical
deriving DecidableEq

def Bin.class : Bin → Class
  | .range => .range
  | .arith .mul => .mul
  | .arith .div => .divRem
  | .arith .rem => .divRem
  | .arith .add => .addSub
  | .arith .sub => .addSub
  | .append => .addSub
  | .arith .shl => .shift
  | .arith .shr => .shift
  | .arith .bitAnd => .bitAnd
  | .arith .bitOr => .bitOr
  | .rel .eq => .equality
  | .rel .ne => .equality
  | .rel _ => .order
  | .arith .boolAnd => .logical
  | .arith .boolOr => .logical

/-- the class of the operator at the root -/
def root : Tree Expr Bin Pre Post → Option Class
  | .bin o _ _ => some o.class
  | _ => none

/-- The text of the leaf has no operator outside delimiters (a `Destructure` reaches as far as possible, and is parenthesised as
an operand). -/
def Whole : Expr → Prop
  | .numeric (.const _) => True
  | .numeric (.numVar _) => True
  | .numeric _ => False
  | _ => True

/-- Trees whose grouping survives printing.  Operands of `&&` and `||` are always safe.  Operands of `==` and `!=` must not be
`&&` or `||`; operands of `<` and the like must not be comparisons either; the right operand of any other operator must not be of
the same class. -/
def Tame : Tree Expr Bin Pre Post → Prop
  | .atom a => Whole a
  | .bin o l r => Tame l ∧ Tame r ∧
      match o.class with
      | .logical => True
      | .equality => root l ≠ some .logical ∧ root r ≠ some .logical
      | .order => (root l ≠ some .logical ∧ root l ≠ some .equality ∧ root l ≠ some .order) ∧
          root r ≠ some .logical ∧ root r ≠ some .equality ∧ root r ≠ some .order
      | c => root r ≠ some c
  | .pre _ e => Tame e
  | .post _ e => Tame e

/-- the classes `* `, `/ %`, `+ - ++`, `<< >>`, `&`, `|` -/
def Class.chains : Class → Bool
  | .mul => true
  | .divRem => true
  | .addSub => true
  | .shift => true
  | .bitAnd => true
  | .bitOr => true
  | _ => false

/-- all leaves are whole -/
def Leaves : Tree Expr Bin Pre Post → Prop
  | .atom a => Whole a
  | .bin _ l r => Leaves l ∧ Leaves r
  | .pre _ e => Leaves e
  | .post _ e => Leaves e

/-- The right operand of `* / % + - ++ << >> & |` is not of the same class. -/
def Leaning : Tree Expr Bin Pre Post → Prop
  | .atom _ => True
  | .bin o l r => Leaning l ∧ Leaning r ∧ (o.class.chains = true → root r ≠ some o.class)
  | .pre _ e => Leaning e
  | .post _ e => Leaning e

/-- `l o r` with the operators of the same class regrouped to the left: `l o (a o' b)` becomes `(l o a) o' b`. -/
def attach (o : Bin) (l : Tree Expr Bin Pre Post) : Tree Expr Bin Pre Post → Tree Expr Bin Pre Post
  | .bin o' a b =>
    if o.class.chains = true ∧ o'.class = o.class then .bin o' (attach o l a) b else .bin o l (.bin o' a b)
  | r => .bin o l r

/-- The tree with every chain of operators of one class regrouped to the left. -/
def regroup : Tree Expr Bin Pre Post → Tree Expr Bin Pre Post
  | .atom a => .atom a
  | .bin o l r => attach o (regroup l) (regroup r)
  | .pre o e => .pre o (regroup e)
  | .post o e => .post o (regroup e)

end TreeExpr
end Doodle
