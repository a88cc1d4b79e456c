import Verif.Spec.TypeSound

/-!
Specification vocabulary for progress: which run-time faults a well-typed expression may still hit.
Every fault names an operand value (or the lack of a matching branch); none of them is an operand of
the wrong kind.
-/

namespace Doodle
open Num (BitWidth)

variable {δ : Type}

/-- Every name that the typing scope types as a value is bound. -/
def Scope.Covers (s : Scope δ) (Γ : TypeScope) : Prop :=
  ∀ name t, Γ.get name = .ok (.value t) → ∃ v, s.getValue name = some v

/-- `x` evaluates to `v`, the wrappers around the value removed. -/
def Expr.Gives (s : Scope δ) (x : Expr) (v : Value) : Prop :=
  ∃ v0, x.eval s = .ok v0 ∧ v0.coerceMapped = v

/-- `x` evaluates to the `w`-bit number `n`. -/
def Expr.GivesNum (s : Scope δ) (x : Expr) (w : BitWidth) (n : Nat) : Prop :=
  ∃ h, x.Gives s (.num (.fixed w) ⟨n, h⟩)

/-- `op` has no `w`-bit result on these operands: overflow, a zero divisor, or a shift (by the low 32
bits of the right operand) of at least the width. -/
def ArithFault (op : Arith) (w : BitWidth) (a b : Nat) : Prop :=
  match op with
  | .add => 2 ^ w.bits ≤ a + b
  | .sub => a < b
  | .mul => 2 ^ w.bits ≤ a * b
  | .div => b = 0
  | .rem => b = 0
  | .shl => w.bits ≤ b % 2 ^ 32
  | .shr => w.bits ≤ b % 2 ^ 32
  | .bitAnd => False
  | .bitOr => False
  | .boolOr => False
  | .boolAnd => False

/-- successor or predecessor without `w`-bit result -/
def UnaryFault (op : UnaryOp) (w : BitWidth) (a : Nat) : Prop :=
  match op with
  | .intSucc => 2 ^ w.bits ≤ a + 1
  | .intPred => a = 0
  | .boolNot => False

/-- The sub-expressions that evaluation always evaluates, in the same scope. -/
def Expr.operands : Expr → List Expr
  | .var _ => []
  | .bool _ => []
  | .lit _ _ => []
  | .numeric _ => []
  | .tuple es => es
  | .tupleProj x _ => [x]
  | .record fs => fs.map (·.2)
  | .recordProj x _ => [x]
  | .variant _ x => [x]
  | .seq es => es
  | .match_ x _ => [x]
  | .destructure x _ _ => [x]
  | .lambda _ _ => []
  | .intRel _ x y => [x, y]
  | .arith _ x y => [x, y]
  | .unary _ x => [x]
  | .asNum _ x => [x]
  | .asChar x => [x]
  | .fromBytes _ _ x => [x]
  | .seqLength x => [x]
  | .subSeq x y z => [x, y, z]
  | .seqIx x y => [x, y]
  | .subSeqInflate x y z => [x, y, z]
  | .flatMap _ x => [x]
  | .flatMapAccum _ a _ x => [a, x]
  | .flatMapList _ _ x => [x]
  | .findByKey _ _ q x => [q, x]
  | .enumFromTo x y => [x, y]
  | .leftFold _ a _ x => [a, x]
  | .dup x y => [x, y]
  | .liftNone => []
  | .liftSome x => [x]
  | .append x y => [x, y]

/-- A fold over a list, as a relation: `FoldChain step a xs b` if going through `xs` leads from `a` to `b`. -/
inductive FoldChain {α β : Type} (step : α → β → α → Prop) : α → List β → α → Prop
  | nil {a} : FoldChain step a [] a
  | cons {a x b xs c} : step a x b → FoldChain step b xs c → FoldChain step a (x :: xs) c

/-- one step of a left fold -/
def FoldStep (s : Scope δ) (name : String) (body : Expr) (a x b : Value) : Prop :=
  body.Gives (.single name (.tuple [a, x]) s) b

/-- one step of a flat-map with accumulator: the accumulator it leads to -/
def AccumStep (s : Scope δ) (name : String) (body : Expr) (a x b : Value) : Prop :=
  ∃ q, body.Gives (.single name (.tuple [a, x]) s) (.tuple [b, .seq q])

/-- one step of a flat-map over the list built so far -/
def ListStep (s : Scope δ) (name : String) (body : Expr) (l : List Value) (x : Value) (l' : List Value) :
    Prop :=
  ∃ q, body.Gives (.single name (.tuple [.seq (.strict l), x]) s) (.seq q) ∧ l' = l ++ q.iter

/-- `Faults s e`: evaluating `e` in `s` hits a run-time fault. -/
inductive Faults : Scope δ → Expr → Prop
  /-- a fault of an operand -/
  | operand {s e x} : x ∈ e.operands → Faults s x → Faults s e
  /-- an arithmetic operation without result -/
  | arith {s op x y w a b} : x.GivesNum s w a → y.GivesNum s w b → ArithFault op w a b →
      Faults s (.arith op x y)
  /-- a successor or predecessor without result -/
  | unary {s op x w a} : x.GivesNum s w a → UnaryFault op w a → Faults s (.unary op x)
  /-- a conversion to a narrower type loses bits -/
  | asNum {s w x w' a} : x.GivesNum s w' a → 2 ^ w.bits ≤ a → Faults s (.asNum w x)
  /-- a character code above 32 bits -/
  | asChar {s x w a} : x.GivesNum s w a → 2 ^ 32 ≤ a → Faults s (.asChar x)
  /-- the bytes of a word are still wrapped as results of formats -/
  | wrappedByte {s w be x vs v} : x.Gives s (.tuple vs) → v ∈ vs → v.coerceMapped ≠ v →
      Faults s (.fromBytes w be x)
  /-- an index past the end -/
  | seqIx {s x y q w i} : x.Gives s (.seq q) → y.GivesNum s w i → q.iter.length ≤ i → Faults s (.seqIx x y)
  /-- a sub-sequence past the end -/
  | subSeq {s x y z q w a w' n} : x.Gives s (.seq q) → y.GivesNum s w a → z.GivesNum s w' n →
      q.iter.length < a + n → Faults s (.subSeq x y z)
  /-- a back-reference that starts past the end -/
  | subSeqInflate {s x y z q w a w' n} : x.Gives s (.seq q) → y.GivesNum s w a → z.GivesNum s w' n →
      q.iter.length ≤ a → 0 < n → Faults s (.subSeqInflate x y z)
  /-- no branch matches -/
  | noBranch {s head branches v} : head.eval s = .ok v →
      (∀ b ∈ branches, v.matchesPat b.1 = none) → Faults s (.match_ head branches)
  /-- a fault in the first matching branch -/
  | branch {s head v pre p e post bs} : head.eval s = .ok v → (∀ b ∈ pre, v.matchesPat b.1 = none) →
      v.matchesPat p = some bs → Faults (s.withBindings bs) e →
      Faults s (.match_ head (pre ++ (p, e) :: post))
  /-- a destructuring pattern does not match -/
  | mismatch {s head p e v} : head.eval s = .ok v → v.matchesPat p = none → Faults s (.destructure head p e)
  /-- a fault in the body of a destructuring -/
  | destructure {s head p e v bs} : head.eval s = .ok v → v.matchesPat p = some bs →
      Faults (s.withBindings bs) e → Faults s (.destructure head p e)
  /-- a fault of the function at some item -/
  | flatMap {s name body x q v} : x.Gives s (.seq q) → v ∈ q.iter → Faults (.single name v s) body →
      Faults s (.flatMap (.lambda name body) x)
  /-- a fault of the function at an accumulator and item that occur -/
  | leftFold {s name body acc ty x q a pre v post b} : x.Gives s (.seq q) → q.iter = pre ++ v :: post →
      acc.Gives s a → FoldChain (FoldStep s name body) a pre b → Faults (.single name (.tuple [b, v]) s) body →
      Faults s (.leftFold (.lambda name body) acc ty x)
  /-- the same for a flat-map with accumulator -/
  | flatMapAccum {s name body acc ty x q a pre v post b} : x.Gives s (.seq q) → q.iter = pre ++ v :: post →
      acc.Gives s a → FoldChain (AccumStep s name body) a pre b → Faults (.single name (.tuple [b, v]) s) body →
      Faults s (.flatMapAccum (.lambda name body) acc ty x)
  /-- the items that a step of a flat-map with accumulator returns are still wrapped -/
  | wrappedItems {s name body acc ty x q a pre v post b c r} : x.Gives s (.seq q) →
      q.iter = pre ++ v :: post → acc.Gives s a → FoldChain (AccumStep s name body) a pre b →
      body.Gives (.single name (.tuple [b, v]) s) (.tuple [c, r]) → r.coerceMapped ≠ r →
      Faults s (.flatMapAccum (.lambda name body) acc ty x)
  /-- a fault of the function at a list and item that occur -/
  | flatMapList {s name body ty x q pre v post l} : x.Gives s (.seq q) → q.iter = pre ++ v :: post →
      FoldChain (ListStep s name body) [] pre l →
      Faults (.single name (.tuple [.seq (.strict l), v]) s) body →
      Faults s (.flatMapList (.lambda name body) ty x)
  /-- a search fails, and the key function faults at one of the items -/
  | findByKey {s sorted name body query x q v} :
      (Expr.findByKey sorted (.lambda name body) query x).eval s = .panic →
      x.Gives s (.seq q) → v ∈ q.iter → Faults (.single name v s) body →
      Faults s (.findByKey sorted (.lambda name body) query x)

end Doodle
