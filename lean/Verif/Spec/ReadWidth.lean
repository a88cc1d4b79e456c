import Verif.Model.ReadWidth
import Verif.Spec.TypeAnalysis

/-!
Specification for read widths (C70): the numbers of bytes that values of a type are read from.
-/

namespace Doodle
namespace TypeAnalysis

/-- nothing is known about where values of these types are read from -/
def RType.Anything : RType → Prop
  | .prim .bool | .prim .char | .prim .usize => True
  | .vec _ | .rawSlice _ | .option _ | .borrow _ _ | .readArray | .viewObject => True
  | _ => False

mutual
/-- A value of the type is made of `k` bytes, its parts one after the other: a number takes its width, a value of a defined type
what its fields take, or the fields of one of its variants. -/
inductive Takes (defs : List TypeDef) : RType → Nat → Prop
  | unit : Takes defs (.prim .unit) 0
  | unsigned {w : Num.BitWidth} {k : Nat} : 8 * k = w.bits → Takes defs (.prim (.unsigned w)) k
  | signed {w : Num.BitWidth} {k : Nat} : 8 * k = w.bits → Takes defs (.signed w) k
  | phantomData {t} : Takes defs (.phantomData t) 0
  | tuple {ts k} : TakesAll defs ts k → Takes defs (.tuple ts) k
  | struct {ix fs k} : defs[ix]? = some (.struct fs) → TakesAll defs fs k → Takes defs (.localDef ix) k
  | enum {ix vs v k} : defs[ix]? = some (.enum vs) → v ∈ vs → TakesAll defs v.fields k → Takes defs (.localDef ix) k
  | anything {t k} : t.Anything → Takes defs t k
/-- one after the other -/
inductive TakesAll (defs : List TypeDef) : List RType → Nat → Prop
  | nil : TakesAll defs [] 0
  | cons {t ts a b} : Takes defs t a → TakesAll defs ts b → TakesAll defs (t :: ts) (a + b)
end

/-- `P` holds for exactly one number if the width is fixed, which then is that number, and for more than one if it is variable. -/
def Width.Of (P : Nat → Prop) : Width → Prop
  | .fixed n => ∀ k, P k ↔ k = n
  | .varies _ => ∃ a b, P a ∧ P b ∧ a ≠ b

/-- the widths two programs find agree, apart from whether a width that varies does so for a dynamic reason -/
def Width.Alike (a b : Width) : Prop := a.asFixed = b.asFixed

end TypeAnalysis
end Doodle
