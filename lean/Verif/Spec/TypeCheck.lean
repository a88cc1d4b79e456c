import Verif.Model.TypeCheck
import Verif.Spec.Unify
import Verif.Spec.TypeSound
import Verif.Spec.Free

/-!
Specification vocabulary for the type checker on expressions: when a run-time scope agrees with the scope of
the type checker, and the expressions about which its verdict can be relied on.
-/

namespace Doodle

mutual
/-- a type annotation without `Any`, `Empty` and the numeric hole (which the type checker matches with every type) -/
def ValueType.Solid : ValueType → Prop
  | .any => False
  | .empty => False
  | .numericHole => False
  | .union bs => ValueType.SolidFields bs
  | .viewObj => True
  | .base _ => True
  | .signed _ => True
  | .phantom t => t.Solid
  | .tuple ts => ValueType.SolidList ts
  | .record fs => ValueType.SolidFields fs
  | .seq t => t.Solid
  | .option t => t.Solid
/-- the same for the components of a tuple -/
def ValueType.SolidList : List ValueType → Prop
  | [] => True
  | t :: ts => t.Solid ∧ ValueType.SolidList ts
/-- the same for the fields of a record and the alternatives of a union -/
def ValueType.SolidFields : List (String × ValueType) → Prop
  | [] => True
  | (_, t) :: ts => t.Solid ∧ ValueType.SolidFields ts
end

mutual
/-- every type annotation inside the expression is solid -/
def Expr.Solid : Expr → Prop
  | .var _ => True
  | .bool _ => True
  | .lit _ _ => True
  | .numeric _ => True
  | .tuple es => Expr.SolidList es
  | .tupleProj e _ => e.Solid
  | .record fs => Expr.SolidFields fs
  | .recordProj e _ => e.Solid
  | .variant _ e => e.Solid
  | .seq es => Expr.SolidList es
  | .match_ e bs => e.Solid ∧ Expr.SolidBranches bs
  | .destructure e _ b => e.Solid ∧ b.Solid
  | .lambda _ b => b.Solid
  | .intRel _ x y => x.Solid ∧ y.Solid
  | .arith _ x y => x.Solid ∧ y.Solid
  | .unary _ x => x.Solid
  | .asNum _ x => x.Solid
  | .asChar x => x.Solid
  | .fromBytes _ _ x => x.Solid
  | .seqLength x => x.Solid
  | .seqIx x i => x.Solid ∧ i.Solid
  | .subSeq x a n => x.Solid ∧ a.Solid ∧ n.Solid
  | .subSeqInflate x a n => x.Solid ∧ a.Solid ∧ n.Solid
  | .flatMap f x => f.Solid ∧ x.Solid
  | .flatMapAccum f a ty x => f.Solid ∧ a.Solid ∧ ty.Solid ∧ x.Solid
  | .leftFold f a ty x => f.Solid ∧ a.Solid ∧ ty.Solid ∧ x.Solid
  | .findByKey _ f q x => f.Solid ∧ q.Solid ∧ x.Solid
  | .flatMapList f ty x => f.Solid ∧ ty.Solid ∧ x.Solid
  | .enumFromTo a b => a.Solid ∧ b.Solid
  | .dup n x => n.Solid ∧ x.Solid
  | .liftSome x => x.Solid
  | .liftNone => True
  | .append x y => x.Solid ∧ y.Solid
/-- every element -/
def Expr.SolidList : List Expr → Prop
  | [] => True
  | e :: es => e.Solid ∧ Expr.SolidList es
/-- every field -/
def Expr.SolidFields : List (String × Expr) → Prop
  | [] => True
  | (_, e) :: fs => e.Solid ∧ Expr.SolidFields fs
/-- every branch -/
def Expr.SolidBranches : List (Pattern × Expr) → Prop
  | [] => True
  | (_, e) :: rest => e.Solid ∧ Expr.SolidBranches rest
end

mutual
/-- The expressions whose values have the type the type checker finds.  Where the value of an operand decides
the value of the result, but not its type (indices, bounds, operands of casts and comparisons, keys), the
operand is arbitrary.  Otherwise:
* no `SeqLength`: its value is a `U32`, whatever the type checker chose;
* no `EnumFromTo` unless run-time `usize` values are accepted at numeric types;
* `Numeric` expressions only if `Numeric` values are accepted, and tame unless out-of-range ones are, too;
* no field of a record mentions the label of an earlier one: the type checker takes it for that field, the
  evaluator does not. -/
def Expr.Exact (K : Slack) : Expr → Prop
  | .var _ => True
  | .bool _ => True
  | .lit _ _ => True
  | .numeric n => K.numerics = true ∧ (K.wide = true ∨ n.Tame)
  | .tuple es => Expr.ExactList K es
  | .tupleProj e _ => e.Exact K
  | .record fs => Expr.ExactFields K fs
  | .recordProj e _ => e.Exact K
  | .variant _ e => e.Exact K
  | .seq es => Expr.ExactList K es
  | .match_ e bs => e.Exact K ∧ Expr.ExactBranches K bs
  | .destructure e _ b => e.Exact K ∧ b.Exact K
  | .lambda _ b => b.Exact K
  | .intRel _ _ _ => True
  | .arith op x _ => op = .boolAnd ∨ op = .boolOr ∨ x.Exact K
  | .unary op x => op = .boolNot ∨ x.Exact K
  | .asNum _ _ => True
  | .asChar _ => True
  | .fromBytes _ _ _ => True
  | .seqLength _ => False
  | .seqIx x _ => x.Exact K
  | .subSeq x _ _ => x.Exact K
  | .subSeqInflate x _ _ => x.Exact K
  | .flatMap f x => f.Exact K ∧ x.Exact K
  | .flatMapAccum f a _ x => f.Exact K ∧ a.Exact K ∧ x.Exact K
  | .leftFold f a _ x => f.Exact K ∧ a.Exact K ∧ x.Exact K
  | .findByKey _ _ _ x => x.Exact K
  | .flatMapList f _ x => f.Exact K ∧ x.Exact K
  | .enumFromTo _ _ => K.usize = true
  | .dup _ x => x.Exact K
  | .liftSome x => x.Exact K
  | .liftNone => True
  | .append x y => x.Exact K ∧ y.Exact K
/-- every element -/
def Expr.ExactList (K : Slack) : List Expr → Prop
  | [] => True
  | e :: es => e.Exact K ∧ Expr.ExactList K es
/-- every field; no later field mentions the label -/
def Expr.ExactFields (K : Slack) : List (String × Expr) → Prop
  | [] => True
  | (l, e) :: fs => e.Exact K ∧ ¬ Expr.freeFields l fs ∧ Expr.ExactFields K fs
/-- every branch -/
def Expr.ExactBranches (K : Slack) : List (Pattern × Expr) → Prop
  | [] => True
  | (_, e) :: rest => e.Exact K ∧ Expr.ExactBranches K rest
end

namespace Tc

/-- The value of each name has the type that the assignment gives to the meta-variable of that name. -/
def UScope.Agrees {δ : Type} (sc : UScope) (K : Slack) (σ : Assignment) (s : Scope δ) : Prop :=
  ∀ name w v, sc.get name = some w → s.getValue name = some v → v.HasType K (σ w)

/-- Every value of the expression, in a run-time scope that agrees with the scope of the type checker, has the
type. -/
def SoundAt (δ : Type) (K : Slack) (σ : Assignment) (sc : UScope) (e : Expr) (T : ValueType) : Prop :=
  ∀ (s : Scope δ) (v : Value), sc.Agrees K σ s → e.eval s = .ok v → v.HasType K T

end Tc
end Doodle
