import Verif.Model.Inference
import Verif.Spec.BaseSet

/-! The typing rules of numeric expressions, in terms of trees with a machine type at every node. -/

namespace Doodle
namespace Tc
namespace TypingSpec

open Num (MachineRep)

/-- an expression that says nothing about its type: built from untyped constants by operations that do not name
their result type -/
def untyped : Num.Expr → Bool
  | .const c => c.rep.isAuto
  | .binOp _ o l r => o.isNone && untyped l && untyped r
  | .unaryOp _ o e => o.isNone && untyped e
  | .cast _ _ _ => false
  | .numVar _ => false

/-- The types of a tree are right.

* A constant has the type it names, or, if it names none, a type that can represent it.
* An operation that does not name its result type has the type of its operands.
* An operation that names its result type has it, and so have those of its operands that say nothing about theirs;
  so do casts.
* The signature recorded with an operation gives the types of its operands and its result. -/
inductive Typing : TypedExpr → Prop
  | named {t : MachineRep} {v : Int} : Typing (.const t ⟨v, .concrete t⟩)
  | unnamed {t : MachineRep} {v : Int} : Holds t v → Typing (.const t ⟨v, .auto⟩)
  | bin {t : MachineRep} {op : Num.BasicBinOp} {l r : TypedExpr} : Typing l → Typing r → l.getType = t →
      r.getType = t → Typing (.binOp t ((t, t), t) op none l r)
  | binTo {t : MachineRep} {op : Num.BasicBinOp} {l r : TypedExpr} : Typing l → Typing r →
      (untyped l.toExpr = true → l.getType = t) → (untyped r.toExpr = true → r.getType = t) →
      Typing (.binOp t ((l.getType, r.getType), t) op (some t) l r)
  | un {t : MachineRep} {op : Num.BasicUnaryOp} {e : TypedExpr} : Typing e → e.getType = t →
      Typing (.unaryOp t (t, t) op none e)
  | unTo {t : MachineRep} {op : Num.BasicUnaryOp} {e : TypedExpr} : Typing e →
      (untyped e.toExpr = true → e.getType = t) → Typing (.unaryOp t (e.getType, t) op (some t) e)
  | cast {t : MachineRep} {bitwise : Bool} {e : TypedExpr} : Typing e →
      (untyped e.toExpr = true → e.getType = t) → Typing (.cast t (e.getType, t) t bitwise e)

/-- `t` is a way to give types to all parts of `e` -/
def Explains (t : TypedExpr) (e : Num.Expr) : Prop := t.toExpr = e ∧ Typing t

/-- there is exactly one way -/
def Unique (t : TypedExpr) (e : Num.Expr) : Prop := Explains t e ∧ ∀ t', Explains t' e → t' = t

end TypingSpec
end Tc
end Doodle
