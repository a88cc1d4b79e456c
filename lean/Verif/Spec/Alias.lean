import Verif.Model.Inference

/-! What it means for variables to have been made equal. -/

namespace Doodle
namespace Tc
namespace AliasSpec

open Aliases (Request)

/-- how many variables a history creates -/
def created (h : List Request) : Nat := (h.filter (fun r => r = .fresh)).length

/-- every request is about variables created before it; `n` of them exist at the start -/
def InScope : Nat → List Request → Prop
  | _, [] => True
  | n, .fresh :: rest => InScope (n + 1) rest
  | n, .join v1 v2 :: rest => v1 < n ∧ v2 < n ∧ InScope n rest

/-- equal as far as the requests of a history say: the least equivalence relation with all of them -/
inductive Linked (h : List Request) : Nat → Nat → Prop
  | asked {a b : Nat} : Request.join a b ∈ h → Linked h a b
  | refl (a : Nat) : Linked h a a
  | symm {a b : Nat} : Linked h a b → Linked h b a
  | trans {a b c : Nat} : Linked h a b → Linked h b c → Linked h a c

/-- a table says exactly what the history says: the variables with one representative are those the requests make
equal, and the representative is the oldest -/
def Represents (t : Aliases) (h : List Request) : Prop :=
  ∃ rep : Nat → Nat, (∀ v < created h, t.getCanonical v = .ok (rep v)) ∧
    (∀ v < created h, ∀ w < created h, rep v = rep w ↔ Linked h v w) ∧
    (∀ v < created h, Linked h v (rep v) ∧ ∀ w, Linked h v w → rep v ≤ w)

end AliasSpec
end Tc
end Doodle
