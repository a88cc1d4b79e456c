import Verif.Model.Inference
import Verif.Spec.Inference
import Verif.Props.NumEval

/-! Specification for C60: what a typed numeric expression is to compute, and the cases in which the generated code
differs. -/

namespace Doodle
namespace Num
namespace CodegenSpec

open Tc (TypedExpr)
open Tc.TypingSpec (untyped)

/-- The types of a tree are right: the rules of `Tc.TypingSpec.Typing`, and a variable has the type it was declared
with. -/
inductive WellTyped (vars : String → Option MachineRep) : TypedExpr → Prop
  | var {t : MachineRep} {x : String} : vars x = some t → WellTyped vars (.numVar t x)
  | named {t : MachineRep} {v : Int} : WellTyped vars (.const t ⟨v, .concrete t⟩)
  | unnamed {t : MachineRep} {v : Int} : WellTyped vars (.const t ⟨v, .auto⟩)
  | bin {t : MachineRep} {op : BasicBinOp} {l r : TypedExpr} : WellTyped vars l → WellTyped vars r →
      l.getType = t → r.getType = t → WellTyped vars (.binOp t ((t, t), t) op none l r)
  | binTo {t : MachineRep} {op : BasicBinOp} {l r : TypedExpr} : WellTyped vars l → WellTyped vars r →
      WellTyped vars (.binOp t ((l.getType, r.getType), t) op (some t) l r)
  | un {t : MachineRep} {op : BasicUnaryOp} {e : TypedExpr} : WellTyped vars e → e.getType = t →
      WellTyped vars (.unaryOp t (t, t) op none e)
  | unTo {t : MachineRep} {op : BasicUnaryOp} {e : TypedExpr} : WellTyped vars e →
      WellTyped vars (.unaryOp t (e.getType, t) op (some t) e)
  | cast {t : MachineRep} {bitwise : Bool} {e : TypedExpr} : WellTyped vars e →
      (untyped e.toExpr = true → e.getType = t) → WellTyped vars (.cast t (e.getType, t) t bitwise e)

/-- the mathematical meaning of the unary operations -/
def mathUn : BasicUnaryOp → Int → Int
  | .negate, x => -x
  | .absVal, x => x.natAbs
  | .intPred, x => x - 1
  | .intSucc, x => x + 1

/-- `Exact env t n`: computing `t` over the integers gives `n`, and the result of every part of `t` is a number of the
type given to that part.  An arithmetic cast keeps the number; a bitwise cast gives the number of the new type with the
same low bits. -/
inductive Exact (env : String → Int) : TypedExpr → Int → Prop
  | var {t : MachineRep} {x : String} : t.Mem (env x) → Exact env (.numVar t x) (env x)
  | const {t : MachineRep} {c : TypedConst} : t.Mem c.val → Exact env (.const t c) c.val
  | bin {t : MachineRep} {sig : (MachineRep × MachineRep) × MachineRep} {op : BasicBinOp} {o : Option MachineRep}
      {l r : TypedExpr} {a b n : Int} : Exact env l a → Exact env r b → mathOp op a b = some n → t.Mem n →
      Exact env (.binOp t sig op o l r) n
  | un {t : MachineRep} {sig : MachineRep × MachineRep} {op : BasicUnaryOp} {o : Option MachineRep} {e : TypedExpr}
      {a : Int} : Exact env e a → t.Mem (mathUn op a) → Exact env (.unaryOp t sig op o e) (mathUn op a)
  | cast {t : MachineRep} {sig : MachineRep × MachineRep} {o : MachineRep} {e : TypedExpr} {a : Int} :
      Exact env e a → t.Mem a → Exact env (.cast t sig o false e) a
  | bitwise {t : MachineRep} {sig : MachineRep × MachineRep} {o : MachineRep} {e : TypedExpr} {a n : Int} :
      Exact env e a → t.Mem n → (n - a) % 2 ^ t.bitWidth.bits = 0 → Exact env (.cast t sig o true e) n

/-- One operand has a type of 64 bits, which is also the type of the result, and the other a type contained in it. -/
def Mixed64 (l r o : MachineRep) : Prop :=
  o.bitWidth.bits = 64 ∧ l ≠ r ∧ ((l = o ∧ ∀ n, r.Mem n → o.Mem n) ∨ (r = o ∧ ∀ n, l.Mem n → o.Mem n))

/-- The expressions for which there are helpers: constants within their types, no successors or predecessors, no
negation of an unsigned number into a signed type that is not wider, and no operation that has one operand and the
result in a type of 64 bits and the other operand in a smaller type. -/
def Supported : TypedExpr → Prop
  | .numVar _ _ => True
  | .const t c => t.Mem c.val
  | .binOp t _ _ _ l r => Supported l ∧ Supported r ∧ ¬ Mixed64 l.getType r.getType t
  | .unaryOp t _ op _ e => Supported e ∧ (op = .absVal ∨ op = .negate ∧
      ¬ (e.getType.isSigned = false ∧ t.isSigned = true ∧ t.bitWidth.bits ≤ e.getType.bitWidth.bits))
  | .cast _ _ _ _ e => Supported e

/-- No part of the expression is a negation, within a signed type, of the least number of that type. -/
def NoNegMin (env : String → Int) : TypedExpr → Prop
  | .numVar _ _ => True
  | .const _ _ => True
  | .binOp _ _ _ _ l r => NoNegMin env l ∧ NoNegMin env r
  | .unaryOp t _ op _ e => NoNegMin env e ∧ (op = .negate → t.isSigned = true → e.getType = t →
      ¬ Exact env e t.asBounds.min)
  | .cast _ _ _ _ e => NoNegMin env e

/-- No part of the expression is a remainder of the least number of a signed type by -1 or, if overflow is checked, an
absolute value of the least number of a signed type. -/
def NoCorner (dbg : Bool) (env : String → Int) : TypedExpr → Prop
  | .numVar _ _ => True
  | .const _ _ => True
  | .binOp t _ op _ l r => NoCorner dbg env l ∧ NoCorner dbg env r ∧
      (op = .rem → t.isSigned = true → Exact env l t.asBounds.min → ¬ Exact env r (-1))
  | .unaryOp _ _ op _ e => NoCorner dbg env e ∧ (dbg = true → op = .absVal → e.getType.isSigned = true →
      ¬ Exact env e e.getType.asBounds.min)
  | .cast _ _ _ _ e => NoCorner dbg env e

/-- No part of the expression is a remainder by a negative number. -/
def NoNegRem (env : String → Int) : TypedExpr → Prop
  | .numVar _ _ => True
  | .const _ _ => True
  | .binOp _ _ op _ l r => NoNegRem env l ∧ NoNegRem env r ∧ (op = .rem → ∀ b, Exact env r b → 0 ≤ b)
  | .unaryOp _ _ _ _ e => NoNegRem env e
  | .cast _ _ _ _ e => NoNegRem env e

end CodegenSpec
end Num
end Doodle
