import Verif.Spec.Pattern
import Verif.Model.Expr

/-!
Specification vocabulary for C21: free occurrences of a name in an expression.  A lambda binds its
parameter in its body, a match arm and a destructuring bind the pattern's binders in their body, and
nothing else binds.
-/

namespace Doodle

mutual
/-- the name occurs free in the expression -/
def Expr.free (x : String) : Expr → Prop
  | .var n => n = x
  | .bool _ => False
  | .lit _ _ => False
  | .tuple es => Expr.freeAny x es
  | .tupleProj e _ => e.free x
  | .record fs => Expr.freeFields x fs
  | .recordProj e _ => e.free x
  | .variant _ e => e.free x
  | .seq es => Expr.freeAny x es
  | .numeric n => x ∈ n.vars
  | .match_ e arms => e.free x ∨ Expr.freeArms x arms
  | .destructure e p b => e.free x ∨ (x ∉ p.binders ∧ b.free x)
  | .lambda n b => n ≠ x ∧ b.free x
  | .intRel _ a b => a.free x ∨ b.free x
  | .arith _ a b => a.free x ∨ b.free x
  | .unary _ a => a.free x
  | .asNum _ a => a.free x
  | .asChar a => a.free x
  | .fromBytes _ _ a => a.free x
  | .seqLength a => a.free x
  | .subSeq a b c => a.free x ∨ b.free x ∨ c.free x
  | .seqIx a b => a.free x ∨ b.free x
  | .subSeqInflate a b c => a.free x ∨ b.free x ∨ c.free x
  | .flatMap a b => a.free x ∨ b.free x
  | .flatMapAccum a b _ c => a.free x ∨ b.free x ∨ c.free x
  | .flatMapList a _ b => a.free x ∨ b.free x
  | .findByKey _ a b c => a.free x ∨ b.free x ∨ c.free x
  | .enumFromTo a b => a.free x ∨ b.free x
  | .leftFold a b _ c => a.free x ∨ b.free x ∨ c.free x
  | .dup a b => a.free x ∨ b.free x
  | .liftNone => False
  | .liftSome a => a.free x
  | .append a b => a.free x ∨ b.free x

/-- some element -/
def Expr.freeAny (x : String) : List Expr → Prop
  | [] => False
  | e :: es => e.free x ∨ Expr.freeAny x es

/-- some field -/
def Expr.freeFields (x : String) : List (String × Expr) → Prop
  | [] => False
  | (_, e) :: fs => e.free x ∨ Expr.freeFields x fs

/-- some arm whose pattern does not bind the name -/
def Expr.freeArms (x : String) : List (Pattern × Expr) → Prop
  | [] => False
  | (p, e) :: rest => (x ∉ p.binders ∧ e.free x) ∨ Expr.freeArms x rest
end

mutual
/-- no record expression inside has a field labelled `x` -/
def Expr.noField (x : String) : Expr → Prop
  | .var _ => True
  | .bool _ => True
  | .lit _ _ => True
  | .tuple es => Expr.noFieldAll x es
  | .tupleProj e _ => e.noField x
  | .record fs => Expr.noFieldFields x fs
  | .recordProj e _ => e.noField x
  | .variant _ e => e.noField x
  | .seq es => Expr.noFieldAll x es
  | .numeric _ => True
  | .match_ e arms => e.noField x ∧ Expr.noFieldArms x arms
  | .destructure e _ b => e.noField x ∧ b.noField x
  | .lambda _ b => b.noField x
  | .intRel _ a b => a.noField x ∧ b.noField x
  | .arith _ a b => a.noField x ∧ b.noField x
  | .unary _ a => a.noField x
  | .asNum _ a => a.noField x
  | .asChar a => a.noField x
  | .fromBytes _ _ a => a.noField x
  | .seqLength a => a.noField x
  | .subSeq a b c => a.noField x ∧ b.noField x ∧ c.noField x
  | .seqIx a b => a.noField x ∧ b.noField x
  | .subSeqInflate a b c => a.noField x ∧ b.noField x ∧ c.noField x
  | .flatMap a b => a.noField x ∧ b.noField x
  | .flatMapAccum a b _ c => a.noField x ∧ b.noField x ∧ c.noField x
  | .flatMapList a _ b => a.noField x ∧ b.noField x
  | .findByKey _ a b c => a.noField x ∧ b.noField x ∧ c.noField x
  | .enumFromTo a b => a.noField x ∧ b.noField x
  | .leftFold a b _ c => a.noField x ∧ b.noField x ∧ c.noField x
  | .dup a b => a.noField x ∧ b.noField x
  | .liftNone => True
  | .liftSome a => a.noField x
  | .append a b => a.noField x ∧ b.noField x

/-- every element -/
def Expr.noFieldAll (x : String) : List Expr → Prop
  | [] => True
  | e :: es => e.noField x ∧ Expr.noFieldAll x es

/-- every field, and no field is labelled `x` -/
def Expr.noFieldFields (x : String) : List (String × Expr) → Prop
  | [] => True
  | (l, e) :: fs => l ≠ x ∧ e.noField x ∧ Expr.noFieldFields x fs

/-- every arm -/
def Expr.noFieldArms (x : String) : List (Pattern × Expr) → Prop
  | [] => True
  | (_, e) :: rest => e.noField x ∧ Expr.noFieldArms x rest
end

end Doodle
