import Verif.Model.Bounds

/-! Specification: a `Bounds` stands for an interval of natural numbers, possibly without upper end. -/

namespace Doodle

/-- `x` lies in the interval `[b.min, b.max]`. -/
def InInterval (b : Bounds) (x : Nat) : Prop :=
  b.min ≤ x ∧ ∀ m, b.max = some m → x ≤ m

/-- the endpoints are machine words -/
def Bounds.Words (b : Bounds) : Prop :=
  b.min < 2 ^ 64 ∧ ∀ m, b.max = some m → m < 2 ^ 64

end Doodle
