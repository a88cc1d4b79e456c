import Verif.Model.Unify
import Verif.Lemmas.Alias

/-!
What it means for an assignment of types to the meta-variables of the type checker to solve its state.

`σ` gives each meta-variable a type.  It solves a state when variables recorded as equal have the same type and
the type of every variable has the property recorded for its class.
-/

namespace Doodle
namespace Tc

/-- an assignment of types to meta-variables -/
abbrev Assignment := Nat → ValueType

mutual
/-- a type with its meta-variables replaced by their types; how a sequence is borrowed does not matter here -/
def UType.inst (σ : Assignment) : UType → ValueType
  | .hole => .any
  | .empty => .empty
  | .viewObj => .viewObj
  | .phantom t => .phantom (t.inst σ)
  | .var v => σ v
  | .base b => .base b
  | .int r => .ofMachine r
  | .tuple ts => .tuple (UType.instList σ ts)
  | .record fs => .record (UType.instFields σ fs)
  | .seq t _ => .seq (t.inst σ)
  | .option t => .option (t.inst σ)
/-- the same for the components of a tuple -/
def UType.instList (σ : Assignment) : List UType → List ValueType
  | [] => []
  | t :: ts => t.inst σ :: UType.instList σ ts
/-- the same for the fields of a record -/
def UType.instFields (σ : Assignment) : List (String × UType) → List (String × ValueType)
  | [] => []
  | (l, t) :: fs => (l, t.inst σ) :: UType.instFields σ fs
end

mutual
/-- the type does not contain `Hole` or `Empty` (which match every type) -/
def UType.Firm : UType → Prop
  | .hole => False
  | .empty => False
  | .phantom t => t.Firm
  | .tuple ts => UType.FirmList ts
  | .record fs => UType.FirmFields fs
  | .seq t _ => t.Firm
  | .option t => t.Firm
  | .viewObj => True
  | .var _ => True
  | .base _ => True
  | .int _ => True
/-- the same for the components of a tuple -/
def UType.FirmList : List UType → Prop
  | [] => True
  | t :: ts => t.Firm ∧ UType.FirmList ts
/-- the same for the fields of a record -/
def UType.FirmFields : List (String × UType) → Prop
  | [] => True
  | (_, t) :: fs => t.Firm ∧ UType.FirmFields fs
end

/-- the type is a meta-variable -/
def UType.IsVar : UType → Prop
  | .var _ => True
  | _ => False

/-- the component or components named by a projection have the types of the variables -/
def ProjShape.Holds (σ : Assignment) : ProjShape → ValueType → Prop
  | .tupleWith m, T => ∃ Us, T = .tuple Us ∧ ∀ i v, NMap.get i m = some v → Us[i]? = some (σ v)
  | .recordWith m, T => ∃ Fs, T = .record Fs ∧ ∀ l v, TMap.get l m = some v → TMap.get l Fs = some (σ v)
  | .seqOf v, T => T = .seq (σ v)
  | .optOf v, T => T = .option (σ v)

/-- a type satisfies a constraint -/
def UConstraint.Holds (σ : Assignment) : UConstraint → ValueType → Prop
  | .equiv t, T => t = .hole ∨ t = .empty ∨ T = t.inst σ
  | .elem bs, T => ∃ b, T = .base b ∧ bs.contains b = .ok true
  | .numTree is, T => ∃ r, T = .ofMachine r ∧ is.contains r = true
  | .proj p, T => p.Holds σ T

/-- a type is a union in which the contents of the variant `l` have type `t` -/
def HasVariant (σ : Assignment) (l : String) (t : UType) (T : ValueType) : Prop :=
  ∃ bs U, T = .union bs ∧ TMap.get l bs = some U ∧ U = t.inst σ

/-- a type satisfies what is recorded for a variable; the variants of a union are in the store -/
def UConstraints.Holds (σ : Assignment) (store : Nat → Option VarMap) : UConstraints → ValueType → Prop
  | .indefinite, _ => True
  | .invariant c, T => c.Holds σ T
  | .variant id, T => ∃ m, store id = some m ∧ ∀ l t, TMap.get l m = some t → HasVariant σ l t T

/-- what the state records about a variable: the constraint of the representative of its class -/
def Checker.known (st : Checker) (v : Nat) : UConstraints :=
  st.constraints.getD (Aliases.root st.aliases v) .indefinite

/-- the state records the two variables as equal -/
def Checker.Same (st : Checker) (v w : Nat) : Prop := Aliases.root st.aliases v = Aliases.root st.aliases w

/-- the assignment solves the state -/
structure Solves (σ : Assignment) (st : Checker) : Prop where
  same : ∀ v w, st.Same v w → σ v = σ w
  holds : ∀ v, (st.known v).Holds σ st.store (σ v)

/-- a constraint without `Hole` and `Empty`, that is not just another variable -/
def UConstraint.Ok : UConstraint → Prop
  | .equiv t => t.Firm ∧ ¬ t.IsVar
  | _ => True

/-- The states the theorems are about: the table of aliases is well formed, `Hole` and `Empty` do not occur,
and two classes do not share a map of variants. -/
structure Good (st : Checker) : Prop where
  wf : Aliases.WF st.aliases
  len : st.constraints.length = st.aliases.length
  con : ∀ (i : Nat) (c : UConstraint), st.constraints[i]? = some (.invariant c) → c.Ok
  var : ∀ id m, st.store id = some m → ∀ l t, (l, t) ∈ m → t.Firm
  own : ∀ v w id, st.known v = .variant id → st.known w = .variant id → st.Same v w
  fresh : ∀ (i id : Nat), st.constraints[i]? = some (.variant id) → id < st.nextId

/-- the orders in which hash tables are visited list the same elements -/
structure Orders.Lists (o : Orders) : Prop where
  nats : ∀ l, (o.nats l).Perm l
  labels : ∀ l, (o.labels l).Perm l
  entries : ∀ m, (o.entries m).Perm m

end Tc
end Doodle
