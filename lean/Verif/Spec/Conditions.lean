import Verif.Spec.Helper
import Verif.Spec.Free

/-! What a format with a condition is to do, and what the expressions made by the helpers are to be. -/

namespace Doodle
namespace Helper

open Num (BitWidth)

/-- `g` reads what `f` reads, and then looks at the unsigned integer of `w` bits that was read: if it satisfies `P`, the
result is that of `f`; otherwise, a strict condition is an error, and another one adds an error to those tolerated.
This is said of the scopes in `D`. -/
def Checks [DecidableEq Next] (f g : Format) (strict : Bool) (w : BitWidth) (D : Scope Decoder → Prop)
    (P : Scope Decoder → Nat → Prop) : Prop :=
  ∀ (m : Module) (o : BuildOpts) (next : Next) (st st' : CompSt) (b : Decoder),
    compileFormat m o f next st = .ok (b, st') → ∃ d, compileFormat m o g next st = .ok (d, st') ∧ ∀ env s c, D s →
      (∀ e, Ends env b s c (.err e) → Ends env d s c (.err e)) ∧
      (∀ (u : Parsed) (n : Nat), n < 2 ^ w.bits → Ends env b s c (.ok u) → u.value.1.coerceMapped = num w n →
        (P s n → Ends env d s c (.ok u)) ∧
        (¬ P s n → (strict = true → ∃ e, Ends env d s c (.err e)) ∧
          (strict = false → ∃ e, Ends env d s c (.ok ⟨u.value, e :: u.errs⟩))))

/-- In the scope the expression has this value. -/
def Is {δ : Type} (e : Expr) (s : Scope δ) (v : Value) : Prop := e.evalValue s = .ok v

/-- the value of a sequence that has these elements -/
def Lists (v : Value) (xs : List Value) : Prop := ∃ q, v.getSequence = some q ∧ q.items = xs

/-- an optional value -/
def option : Option Value → Value
  | some v => .optSome v
  | none => .optNone

end Helper
end Doodle
