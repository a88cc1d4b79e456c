import Verif.Model.BaseSet

/-!
Specification vocabulary for ranked sets of candidate types: which types are in the set, which of two is
preferred, and which machine types can hold a range of integers.
-/

namespace Doodle
namespace Tc

/-- the candidate is in the set -/
def Member {n : Nat} (s : Ranks n) (i : Fin n) : Prop := s i ≠ .excluded

/-- both candidates are in the set and the first has the strictly better (lower) rank -/
def Prefers {n : Nat} (s : Ranks n) (i j : Fin n) : Prop := ∃ a b, s i = .at a ∧ s j = .at b ∧ a < b

/-- the integers of a machine type -/
def Holds (p : Num.MachineRep) (v : Int) : Prop :=
  if p.isSigned then -(2 ^ (p.bitWidth.bits - 1)) ≤ v ∧ v < 2 ^ (p.bitWidth.bits - 1)
  else 0 ≤ v ∧ v < 2 ^ p.bitWidth.bits

end Tc
end Doodle
