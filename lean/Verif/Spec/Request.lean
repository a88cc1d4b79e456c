import Verif.Spec.Unify

/-! Requests to the type checker and what they ask for. -/

namespace Doodle
namespace Tc

/-- what the inference asks of the type checker -/
inductive Request where
  /-- a new meta-variable -/
  | fresh
  /-- two variables have the same type -/
  | eqVars (v w : Nat)
  /-- the variable has the type -/
  | eqType (v : Nat) (t : UType)
  /-- the two types are the same -/
  | eqTypes (t u : UType)
  /-- the variable is one of the base types -/
  | oneOf (v : Nat) (bs : BaseSet)
  /-- the variable is one of the integer types -/
  | oneOfInts (v : Nat) (is : IntSet)
  /-- the variable `tv` is a tuple with a component number `ix`, which has the type of `v` -/
  | component (tv ix v : Nat)
  /-- the variable `rv` is a record with a field `l`, which has the type of `v` -/
  | field (rv : Nat) (l : String) (v : Nat)
  /-- the variable `ov` is an option of the type of `v` -/
  | param (ov v : Nat)
  /-- the variable `sv` is a sequence of the type of `v` -/
  | elem (sv v : Nat)
  /-- the variable is a union with a variant `l` whose contents have the type -/
  | variant (v : Nat) (l : String) (t : UType)

/-- the types that satisfy a request -/
def Request.Met (σ : Assignment) : Request → Prop
  | .fresh => True
  | .eqVars v w => σ v = σ w
  | .eqType v t => σ v = t.inst σ
  | .eqTypes t u => t.inst σ = u.inst σ
  | .oneOf v bs => ∃ b, σ v = .base b ∧ bs.contains b = .ok true
  | .oneOfInts v is => ∃ r, σ v = .ofMachine r ∧ is.contains r = true
  | .component tv ix v => ∃ Us, σ tv = .tuple Us ∧ Us[ix]? = some (σ v)
  | .field rv l v => ∃ Fs, σ rv = .record Fs ∧ TMap.get l Fs = some (σ v)
  | .param ov v => σ ov = .option (σ v)
  | .elem sv v => σ sv = .seq (σ v)
  | .variant v l t => ∃ bs, σ v = .union bs ∧ TMap.get l bs = some (t.inst σ)

/-- `Hole` and `Empty` do not occur in the types of a request -/
def Request.Firm : Request → Prop
  | .eqType _ t => t.Firm
  | .eqTypes t u => t.Firm ∧ u.Firm
  | .variant _ _ t => t.Firm
  | _ => True

/-- the function of the type checker that answers a request; `n` bounds the recursion -/
def Request.run (o : Orders) (n : Nat) : Request → TcM Unit
  | .fresh => do
    let _ ← newVar
    pure ()
  | .eqVars v w => unifyVarPair o n v w
  | .eqType v t => unifyVarUtype o n v t
  | .eqTypes t u => do
    let _ ← unifyUtype o n t u
    pure ()
  | .oneOf v bs => unifyVarBaseset o n v bs
  | .oneOfInts v is => unifyVarIntset o n v is
  | .component tv ix v => unifyVarProjIndex o n tv ix v
  | .field rv l v => unifyVarProjField o n n rv l v
  | .param ov v => unifyVarProjParam o n ov v
  | .elem sv v => unifyVarProjElem o n sv v
  | .variant v l t => addUvarVariant o n v l t

/-- a history of requests -/
def runAll (o : Orders) (n : Nat) : List Request → TcM Unit
  | [] => pure ()
  | r :: rs => do
    r.run o n
    runAll o n rs

end Tc
end Doodle
