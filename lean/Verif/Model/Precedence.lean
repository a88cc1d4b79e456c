/-! Model of /repo/src/precedence.rs: operator precedences and the rule for parentheses. -/

namespace Doodle
namespace Prec

/-- `CalculusLevel` (src/precedence.rs:51-56). -/
inductive CalculusLevel where
  | invoke | lambda | match_
deriving DecidableEq, Repr

/-- `CompareLevel` (src/precedence.rs:58-62). -/
inductive CompareLevel where
  | comparison | equality
deriving DecidableEq, Repr

/-- `LogicalLevel` (src/precedence.rs:64-68). -/
inductive LogicalLevel where
  | and | or
deriving DecidableEq, Repr

/-- `BitwiseLevel` (src/precedence.rs:70-75). -/
inductive BitwiseLevel where
  | shift | and | or
deriving DecidableEq, Repr

/-- `ArithLevel` (src/precedence.rs:77-82). -/
inductive ArithLevel where
  | divRem | mul | addSub
deriving DecidableEq, Repr

/-- `MonoLevel` (src/precedence.rs:84-90). -/
inductive MonoLevel where
  | prefix_ | postfix_
deriving DecidableEq, Repr

/-- `Precedence` (src/precedence.rs:29-49). -/
inductive Precedence where
  | atomic
  | projection
  | mono (l : MonoLevel)
  | arithInfix (l : ArithLevel)
  | bitwiseInfix (l : BitwiseLevel)
  | logicalInfix (l : LogicalLevel)
  | comparison (l : CompareLevel)
  | calculus (l : CalculusLevel)
  | top
deriving DecidableEq, Repr

/-- `Relation` (src/precedence.rs:103-113). -/
inductive Relation where
  | inferior | congruent | superior | disjoint
deriving DecidableEq, Repr

/-- `impl IntransitiveOrd for CompareLevel` (src/precedence.rs:139-149). -/
def CompareLevel.relate : CompareLevel → CompareLevel → Relation
  | .comparison, .comparison => .congruent
  | .equality, .equality => .congruent
  | .comparison, .equality => .disjoint
  | .equality, .comparison => .disjoint

/-- `impl IntransitiveOrd for CalculusLevel` (src/precedence.rs:151-164). -/
def CalculusLevel.relate : CalculusLevel → CalculusLevel → Relation
  | .invoke, .invoke => .congruent
  | .lambda, .lambda => .congruent
  | .match_, .match_ => .congruent
  | .lambda, .invoke => .inferior
  | .invoke, .lambda => .superior
  | .lambda, .match_ => .congruent
  | .match_, .lambda => .congruent
  | .invoke, .match_ => .superior
  | .match_, .invoke => .inferior

/-- `impl IntransitiveOrd for ArithLevel` (src/precedence.rs:166-177). -/
def ArithLevel.relate : ArithLevel → ArithLevel → Relation
  | .divRem, .divRem => .congruent
  | .mul, .mul => .congruent
  | .addSub, .addSub => .congruent
  | .divRem, .mul => .disjoint
  | .mul, .divRem => .disjoint
  | .addSub, _ => .inferior
  | _, .addSub => .superior

/-- `impl IntransitiveOrd for MonoLevel` (src/precedence.rs:179-187). -/
def MonoLevel.relate : MonoLevel → MonoLevel → Relation
  | .prefix_, .prefix_ => .congruent
  | .postfix_, .postfix_ => .congruent
  | .prefix_, .postfix_ => .superior
  | .postfix_, .prefix_ => .inferior

/-- `impl IntransitiveOrd for LogicalLevel` (src/precedence.rs:189-198). -/
def LogicalLevel.relate : LogicalLevel → LogicalLevel → Relation
  | .and, .and => .congruent
  | .and, .or => .superior
  | .or, .and => .inferior
  | .or, .or => .congruent

/-- `impl IntransitiveOrd for BitwiseLevel` (src/precedence.rs:200-212). -/
def BitwiseLevel.relate : BitwiseLevel → BitwiseLevel → Relation
  | .shift, .shift => .congruent
  | .shift, _ => .superior
  | _, .shift => .inferior
  | .and, .and => .congruent
  | .and, .or => .superior
  | .or, .and => .inferior
  | .or, .or => .congruent

/-- `impl IntransitiveOrd for Precedence` (src/precedence.rs:221-266). -/
def Precedence.relate : Precedence → Precedence → Relation
  | .atomic, .atomic => .congruent
  | .projection, .projection => .congruent
  | .top, .top => .congruent
  | .atomic, _ => .superior
  | _, .atomic => .inferior
  | .projection, _ => .superior
  | _, .projection => .inferior
  | .top, _ => .inferior
  | _, .top => .superior
  | .calculus x, .calculus y => x.relate y
  | .arithInfix x, .arithInfix y => x.relate y
  | .bitwiseInfix x, .bitwiseInfix y => x.relate y
  | .logicalInfix x, .logicalInfix y => x.relate y
  | .comparison x, .comparison y => x.relate y
  | .mono x, .mono y => x.relate y
  | .calculus _, _ => .inferior
  | _, .calculus _ => .superior
  | .comparison _, _ => .inferior
  | _, .comparison _ => .superior
  | .mono _, _ => .superior
  | _, .mono _ => .inferior
  | .arithInfix _, .bitwiseInfix _ => .disjoint
  | .bitwiseInfix _, .arithInfix _ => .disjoint
  | .logicalInfix _, .arithInfix _ => .disjoint
  | .arithInfix _, .logicalInfix _ => .disjoint
  | .logicalInfix _, .bitwiseInfix _ => .disjoint
  | .bitwiseInfix _, .logicalInfix _ => .disjoint

namespace Precedence
-- the constants (src/precedence.rs:268-301)
abbrev TOP : Precedence := .top
abbrev INVOKE : Precedence := .calculus .invoke
abbrev COMPARE : Precedence := .comparison .comparison
abbrev EQUALITY : Precedence := .comparison .equality
abbrev BITOR : Precedence := .bitwiseInfix .or
abbrev ADD_SUB : Precedence := .arithInfix .addSub
abbrev DIV_REM : Precedence := .arithInfix .divRem
abbrev BITAND : Precedence := .bitwiseInfix .and
abbrev LOGICAL_AND : Precedence := .logicalInfix .and
abbrev LOGICAL_OR : Precedence := .logicalInfix .or
abbrev LOGICAL_NEGATE : Precedence := .mono .prefix_
abbrev MUL : Precedence := .arithInfix .mul
abbrev BIT_SHIFT : Precedence := .bitwiseInfix .shift
abbrev CAST_INFIX : Precedence := .calculus .invoke
abbrev ATOM : Precedence := .atomic
abbrev UNARY : Precedence := .mono .prefix_
abbrev CAST : Precedence := .mono .postfix_
end Precedence

/-- the test of `cond_paren` (src/precedence.rs:311-318): whether parentheses are written -/
def needsParen (current cutoff : Precedence) : Bool :=
  match current.relate cutoff with
  | .disjoint => true
  | .superior => true
  | .congruent => false
  | .inferior => false

end Prec
end Doodle
