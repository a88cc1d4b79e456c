import Verif.Model.Infer
import Verif.Spec.Typing

/-!
Specification vocabulary for type soundness: when a run-time scope agrees with a typing scope, and the
side conditions under which inference is sound.
-/

namespace Doodle

/-- The value bound to each name has the type that the typing scope gives to that name. -/
def Scope.Agrees {δ : Type} (σ : Slack) (s : Scope δ) (Γ : TypeScope) : Prop :=
  ∀ name t v, Γ.get name = .ok (.value t) → s.getValue name = some v → v.HasType σ t

/-- All types of a typing scope are well-formed. -/
def TypeScope.WF (Γ : TypeScope) : Prop := ∀ name t, (name, ValueKind.value t) ∈ Γ → t.WF

/-- A numeric expression that cannot leave the range of its type: a variable, or a constant that fits
its representation. -/
def Num.Expr.Tame : Num.Expr → Prop
  | .const c =>
    match c.rep with
    | .auto => True
    | .concrete m => m.asBounds.min ≤ c.val ∧ c.val ≤ m.asBounds.max
  | .numVar _ => True
  | _ => False

mutual
/-- The side conditions of type soundness, checked at every sub-expression in the scope in which
inference visits it:
* `EnumFromTo` occurs only if run-time `usize` values are accepted at numeric types;
* `Numeric` expressions occur only if `Numeric` values are accepted, and are tame unless out-of-range ones
  are, too;
* the accumulator a `FlatMapAccum` or `LeftFold` body returns is no more specific than the accumulator
  it was given, and the items a `FlatMapList` body returns are no more specific than its annotation:
  inference unifies these types but then discards the result, or does not compare them at all. -/
def Expr.Kept (σ : Slack) : Expr → TypeScope → Prop
  | .var _, _ => True
  | .bool _, _ => True
  | .lit _ _, _ => True
  | .numeric n, _ => σ.numerics = true ∧ (σ.wide = true ∨ n.Tame)
  | .tuple es, Γ => Expr.KeptList σ es Γ
  | .tupleProj head _, Γ => head.Kept σ Γ
  | .record fs, Γ => Expr.KeptFields σ fs Γ
  | .recordProj head _, Γ => head.Kept σ Γ
  | .variant _ e, Γ => e.Kept σ Γ
  | .seq es, Γ => Expr.KeptList σ es Γ
  | .match_ head branches, Γ =>
    head.Kept σ Γ ∧ ∀ th, head.inferType Γ = .ok th → Expr.KeptBranches σ branches Γ th
  | .destructure head pat body, Γ =>
    head.Kept σ Γ ∧ ∀ th Γ', head.inferType Γ = .ok th → pat.buildScope Γ th = .ok Γ' → body.Kept σ Γ'
  | .lambda _ _, _ => True
  | .intRel _ x y, Γ => x.Kept σ Γ ∧ y.Kept σ Γ
  | .arith _ x y, Γ => x.Kept σ Γ ∧ y.Kept σ Γ
  | .unary _ x, Γ => x.Kept σ Γ
  | .asNum _ x, Γ => x.Kept σ Γ
  | .asChar x, Γ => x.Kept σ Γ
  | .fromBytes _ _ x, Γ => x.Kept σ Γ
  | .seqLength x, Γ => x.Kept σ Γ
  | .seqIx x index, Γ => x.Kept σ Γ ∧ index.Kept σ Γ
  | .subSeq x a n, Γ => x.Kept σ Γ ∧ a.Kept σ Γ ∧ n.Kept σ Γ
  | .subSeqInflate x a n, Γ => x.Kept σ Γ ∧ a.Kept σ Γ ∧ n.Kept σ Γ
  | .flatMap f x, Γ =>
    x.Kept σ Γ ∧
    match f with
    | .lambda name body => ∀ t, x.inferType Γ = .ok (.seq t) → body.Kept σ ((name, .value t) :: Γ)
    | _ => True
  | .flatMapAccum f accum ty x, Γ =>
    x.Kept σ Γ ∧ accum.Kept σ Γ ∧ ty.WF ∧
    match f with
    | .lambda name body => ∀ t t0 ta, x.inferType Γ = .ok (.seq t) → accum.inferType Γ = .ok t0 →
        t0.unify ty = some ta →
        body.Kept σ ((name, .value (.tuple [ta, t])) :: Γ) ∧
        ∀ tacc t2, body.inferType ((name, .value (.tuple [ta, t])) :: Γ) = .ok (.tuple [tacc, .seq t2]) →
          tacc.Le ta
    | _ => True
  | .leftFold f accum ty x, Γ =>
    x.Kept σ Γ ∧ accum.Kept σ Γ ∧ ty.WF ∧
    match f with
    | .lambda name body => ∀ t t0 ta, x.inferType Γ = .ok (.seq t) → accum.inferType Γ = .ok t0 →
        t0.unify ty = some ta →
        body.Kept σ ((name, .value (.tuple [ta, t])) :: Γ) ∧
        ∀ tr, body.inferType ((name, .value (.tuple [ta, t])) :: Γ) = .ok tr → tr.Le ta
    | _ => True
  | .findByKey _ f query x, Γ =>
    x.Kept σ Γ ∧ query.Kept σ Γ ∧
    match f with
    | .lambda name body => ∀ t, x.inferType Γ = .ok (.seq t) → body.Kept σ ((name, .value t) :: Γ)
    | _ => True
  | .flatMapList f ty x, Γ =>
    x.Kept σ Γ ∧ ty.WF ∧
    match f with
    | .lambda name body => ∀ t, x.inferType Γ = .ok (.seq t) →
        body.Kept σ ((name, .value (.tuple [.seq ty, t])) :: Γ) ∧
        ∀ t2, body.inferType ((name, .value (.tuple [.seq ty, t])) :: Γ) = .ok (.seq t2) → t2.Le ty
    | _ => True
  | .enumFromTo a b, Γ => σ.usize = true ∧ a.Kept σ Γ ∧ b.Kept σ Γ
  | .dup n x, Γ => n.Kept σ Γ ∧ x.Kept σ Γ
  | .liftSome x, Γ => x.Kept σ Γ
  | .liftNone, _ => True
  | .append x y, Γ => x.Kept σ Γ ∧ y.Kept σ Γ

/-- every element -/
def Expr.KeptList (σ : Slack) : List Expr → TypeScope → Prop
  | [], _ => True
  | e :: es, Γ => e.Kept σ Γ ∧ Expr.KeptList σ es Γ

/-- every field -/
def Expr.KeptFields (σ : Slack) : List (String × Expr) → TypeScope → Prop
  | [], _ => True
  | (_, e) :: fs, Γ => e.Kept σ Γ ∧ Expr.KeptFields σ fs Γ

/-- every branch, in the scope of its pattern -/
def Expr.KeptBranches (σ : Slack) : List (Pattern × Expr) → TypeScope → ValueType → Prop
  | [], _, _ => True
  | (p, e) :: rest, Γ, th =>
    (∀ Γ', p.buildScope Γ th = .ok Γ' → e.Kept σ Γ') ∧ Expr.KeptBranches σ rest Γ th
end

mutual
/-- A type without holes and without (extensible) unions: no other type is above it. -/
def ValueType.Rigid : ValueType → Prop
  | .any => False
  | .empty => False
  | .numericHole => False
  | .union _ => False
  | .viewObj => True
  | .base _ => True
  | .signed _ => True
  | .phantom t => t.Rigid
  | .tuple ts => ValueType.RigidList ts
  | .record fs => ValueType.RigidFields fs
  | .seq t => t.Rigid
  | .option t => t.Rigid

def ValueType.RigidList : List ValueType → Prop
  | [] => True
  | t :: ts => t.Rigid ∧ ValueType.RigidList ts

def ValueType.RigidFields : List (String × ValueType) → Prop
  | [] => True
  | (_, t) :: ts => t.Rigid ∧ ValueType.RigidFields ts
end

mutual
/-- Side conditions of type soundness that can be read off the expression alone: no `EnumFromTo` unless
run-time `usize` values are accepted, no `Numeric` arithmetic unless out-of-range `Numeric` values are,
no `FlatMapList`, and a rigid accumulator type on every `FlatMapAccum` and `LeftFold`. -/
def Expr.Plain (σ : Slack) : Expr → Prop
  | .var _ => True
  | .bool _ => True
  | .lit _ _ => True
  | .numeric n => σ.numerics = true ∧ (σ.wide = true ∨ n.Tame)
  | .tuple es => Expr.PlainList σ es
  | .tupleProj head _ => head.Plain σ
  | .record fs => Expr.PlainFields σ fs
  | .recordProj head _ => head.Plain σ
  | .variant _ e => e.Plain σ
  | .seq es => Expr.PlainList σ es
  | .match_ head branches => head.Plain σ ∧ Expr.PlainBranches σ branches
  | .destructure head _ body => head.Plain σ ∧ body.Plain σ
  | .lambda _ body => body.Plain σ
  | .intRel _ x y => x.Plain σ ∧ y.Plain σ
  | .arith _ x y => x.Plain σ ∧ y.Plain σ
  | .unary _ x => x.Plain σ
  | .asNum _ x => x.Plain σ
  | .asChar x => x.Plain σ
  | .fromBytes _ _ x => x.Plain σ
  | .seqLength x => x.Plain σ
  | .seqIx x index => x.Plain σ ∧ index.Plain σ
  | .subSeq x a n => x.Plain σ ∧ a.Plain σ ∧ n.Plain σ
  | .subSeqInflate x a n => x.Plain σ ∧ a.Plain σ ∧ n.Plain σ
  | .flatMap f x => f.Plain σ ∧ x.Plain σ
  | .flatMapAccum f accum ty x => f.Plain σ ∧ accum.Plain σ ∧ ty.Rigid ∧ x.Plain σ
  | .leftFold f accum ty x => f.Plain σ ∧ accum.Plain σ ∧ ty.Rigid ∧ x.Plain σ
  | .findByKey _ f query x => f.Plain σ ∧ query.Plain σ ∧ x.Plain σ
  | .flatMapList _ _ _ => False
  | .enumFromTo a b => σ.usize = true ∧ a.Plain σ ∧ b.Plain σ
  | .dup n x => n.Plain σ ∧ x.Plain σ
  | .liftSome x => x.Plain σ
  | .liftNone => True
  | .append x y => x.Plain σ ∧ y.Plain σ

def Expr.PlainList (σ : Slack) : List Expr → Prop
  | [] => True
  | e :: es => e.Plain σ ∧ Expr.PlainList σ es

def Expr.PlainFields (σ : Slack) : List (String × Expr) → Prop
  | [] => True
  | (_, e) :: fs => e.Plain σ ∧ Expr.PlainFields σ fs

def Expr.PlainBranches (σ : Slack) : List (Pattern × Expr) → Prop
  | [] => True
  | (_, e) :: rest => e.Plain σ ∧ Expr.PlainBranches σ rest
end

end Doodle
