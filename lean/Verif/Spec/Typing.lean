import Verif.Model.ValueType
import Verif.Model.Value

/-!
Specification vocabulary for value types: when a type is at most as specific as another, and which
values belong to a type.
-/

namespace Doodle

open Num (BitWidth MachineRep NumRep)

namespace TMap
variable {α : Type}

/-- Every key of the list is above `k`. -/
def Above (k : String) (m : List (String × α)) : Prop := ∀ p ∈ m, k < p.1

/-- The entries of a `BTreeMap`: the keys increase strictly. -/
inductive Sorted : List (String × α) → Prop
  | nil : Sorted []
  | cons {k x m} : Above k m → Sorted m → Sorted ((k, x) :: m)

end TMap

mutual
/-- Every union inside the type lists its alternatives in key order: what `BTreeMap` guarantees. -/
inductive ValueType.WF : ValueType → Prop
  | any : WF .any
  | empty : WF .empty
  | viewObj : WF .viewObj
  | phantom {t} : WF t → WF (.phantom t)
  | base {b} : WF (.base b)
  | numericHole : WF .numericHole
  | signed {w} : WF (.signed w)
  | tuple {ts} : WFList ts → WF (.tuple ts)
  | record {fs} : WFMap fs → WF (.record fs)
  | union {bs} : TMap.Sorted bs → WFMap bs → WF (.union bs)
  | seq {t} : WF t → WF (.seq t)
  | option {t} : WF t → WF (.option t)

inductive ValueType.WFList : List ValueType → Prop
  | nil : WFList []
  | cons {t ts} : ValueType.WF t → WFList ts → WFList (t :: ts)

inductive ValueType.WFMap : List (String × ValueType) → Prop
  | nil : WFMap []
  | cons {l t fs} : ValueType.WF t → WFMap fs → WFMap ((l, t) :: fs)
end

mutual
/-- `t ≤ u`: `u` is `t` with holes filled in and alternatives added to unions.  `Any` is below
everything, `Empty` below everything but `Any`, the numeric hole below every numeric type; composite
types are compared componentwise, unions by their alternatives. -/
inductive ValueType.Le : ValueType → ValueType → Prop
  | any {t} : Le .any t
  | empty {t} : t ≠ .any → Le .empty t
  | numericHole {t} : t.isNumeric = true → Le .numericHole t
  | viewObj : Le .viewObj .viewObj
  | base {b} : Le (.base b) (.base b)
  | signed {w} : Le (.signed w) (.signed w)
  | phantom {t u} : Le t u → Le (.phantom t) (.phantom u)
  | seq {t u} : Le t u → Le (.seq t) (.seq u)
  | option {t u} : Le t u → Le (.option t) (.option u)
  | tuple {ts us} : LeList ts us → Le (.tuple ts) (.tuple us)
  | record {fs gs} : LeFields fs gs → Le (.record fs) (.record gs)
  | union {bs cs} : LeMap bs cs → Le (.union bs) (.union cs)

/-- same length, componentwise -/
inductive ValueType.LeList : List ValueType → List ValueType → Prop
  | nil : LeList [] []
  | cons {t u ts us} : ValueType.Le t u → LeList ts us → LeList (t :: ts) (u :: us)

/-- the same labels in the same order, componentwise -/
inductive ValueType.LeFields : List (String × ValueType) → List (String × ValueType) → Prop
  | nil : LeFields [] []
  | cons {l t u fs gs} : ValueType.Le t u → LeFields fs gs → LeFields ((l, t) :: fs) ((l, u) :: gs)

/-- every alternative of the first is an alternative of the second, at a larger type -/
inductive ValueType.LeMap : List (String × ValueType) → List (String × ValueType) → Prop
  | nil {cs} : LeMap [] cs
  | cons {k t u bs cs} : TMap.get k cs = some u → ValueType.Le t u → LeMap bs cs →
      LeMap ((k, t) :: bs) cs
end

/-- What is known about fallback values (`Permit` whose inner format failed): there are none; they have
the type of the fallback; or, besides, the placeholder that projections out of a fallback value return
is accepted at every type. -/
inductive Fallbacks where
  | none
  | typed
  | poison
deriving DecidableEq, Repr

/-- How strictly values are held to their type.  The strict reading is `Slack.strict`. -/
structure Slack where
  /-- a run-time `usize` is accepted at every numeric type -/
  usize : Bool
  /-- a `Numeric` value of a machine type may lie outside the range of that type -/
  wide : Bool
  fallbacks : Fallbacks
  /-- there are `Numeric` values, results of numeric expressions -/
  numerics : Bool
deriving DecidableEq, Repr

/-- the strict reading -/
def Slack.strict : Slack := ⟨false, false, .typed, true⟩

/-- no fallback values around -/
def Slack.nominal : Slack := ⟨false, false, .none, true⟩

/-- no fallback values, no `usize` values and ranges, no `Numeric` values around -/
def Slack.basic : Slack := ⟨false, false, .none, false⟩

/-- everything allowed -/
def Slack.lax : Slack := ⟨true, true, .poison, true⟩

mutual
/-- `v` is a value of type `t`.  The bookkeeping wrappers (`Mapped`, `Branch`, `Permit`) do not count.  A
constant without representation (`Auto`) belongs to every numeric type.  No ordinary value belongs to
`Any` or `Empty`. -/
def Value.HasType (σ : Slack) : Value → ValueType → Prop
  | .bool _, t => t = .base .bool
  | .num (.fixed w) _, t => t = .base (.num w)
  | .num .usize _, t => σ.usize = true ∧ t.isNumeric = true
  | .char _, t => t = .base .char
  | .numeric c, t =>
    σ.numerics = true ∧
    match c.rep with
    | .auto => t.isNumeric = true
    | .concrete m =>
      t = (if m.isSigned then .signed m.bitWidth else .base (.num m.bitWidth)) ∧
      (σ.wide = true ∨ (m.asBounds.min ≤ c.val ∧ c.val ≤ m.asBounds.max))
  | .view _, t => t = .viewObj
  | .phantom, t => ∃ u, t = .phantom u
  | .enumFromTo a b, t => ∃ u, t = .seq u ∧ σ.usize = true ∧ (a < b → u.isNumeric = true)
  | .optNone, t => ∃ u, t = .option u
  | .optSome v, t => ∃ u, t = .option u ∧ v.HasType σ u
  | .tuple vs, t => ∃ ts, t = .tuple ts ∧ Value.HaveTypes σ vs ts
  | .record fs, t => ∃ ts, t = .record ts ∧ Value.FieldsHave σ fs ts
  | .variant l v, t => ∃ bs u, t = .union bs ∧ TMap.get l bs = some u ∧ v.HasType σ u
  | .seq (.strict vs), t => ∃ u, t = .seq u ∧ Value.AllHave σ vs u
  | .seq (.dup n x), t => ∃ u, t = .seq u ∧ (0 < n → x.HasType σ u)
  | .mapped _ v, t => v.HasType σ t
  | .branch _ v, t => v.HasType σ t
  | .permitOk v, t => v.HasType σ t
  | .permitErr v, t => σ.fallbacks ≠ .none ∧ v.HasType σ t
  | .permitErrNone, _ => σ.fallbacks = .poison

/-- componentwise -/
def Value.HaveTypes (σ : Slack) : List Value → List ValueType → Prop
  | [], [] => True
  | v :: vs, t :: ts => v.HasType σ t ∧ Value.HaveTypes σ vs ts
  | _, _ => False

/-- the same labels in the same order, componentwise -/
def Value.FieldsHave (σ : Slack) : List (String × Value) → List (String × ValueType) → Prop
  | [], [] => True
  | (l, v) :: fs, (k, t) :: ts => l = k ∧ v.HasType σ t ∧ Value.FieldsHave σ fs ts
  | _, _ => False

/-- every element has the type -/
def Value.AllHave (σ : Slack) : List Value → ValueType → Prop
  | [], _ => True
  | v :: vs, t => v.HasType σ t ∧ Value.AllHave σ vs t
end

end Doodle
