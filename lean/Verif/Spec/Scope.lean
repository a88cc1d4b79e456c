import Verif.Model.Expr

/-!
Specification vocabulary for C20: the bindings a scope chain makes, innermost first.
-/

namespace Doodle

/-- what a name can stand for -/
inductive Bound (δ : Type) where
  | value (v : Value)
  | view (c : ReadCtxt)
  | decoder (d : δ)

/-- an entry of a multi-binding frame as a binding -/
def ViewOrValue.bound {δ : Type} : ViewOrValue → Bound δ
  | .view c => .view c
  | .value v => .value v

/-- All bindings visible from a scope, innermost first; within one multi-binding frame the entry
pushed last is the innermost. -/
def Scope.visible {δ : Type} : Scope δ → List (String × Bound δ)
  | .empty => []
  | .multi entries parent => (entries.reverse.map fun e => (e.1, e.2.bound)) ++ parent.visible
  | .single n v parent => (n, .value v) :: parent.visible
  | .decoder n d parent => (n, .decoder d) :: parent.visible
  | .view n c parent => (n, .view c) :: parent.visible

/-- `v` is the innermost value bound to `name`. -/
def InnermostValue {δ : Type} (s : Scope δ) (name : String) (v : Value) : Prop :=
  ∃ inner outer, s.visible = inner ++ (name, .value v) :: outer ∧ ∀ w, (name, Bound.value w) ∉ inner

/-- `c` is the innermost view bound to `name`. -/
def InnermostView {δ : Type} (s : Scope δ) (name : String) (c : ReadCtxt) : Prop :=
  ∃ inner outer, s.visible = inner ++ (name, .view c) :: outer ∧ ∀ w, (name, Bound.view w) ∉ inner

/-- `d` is the innermost decoder bound to `name`. -/
def InnermostDecoder {δ : Type} (s : Scope δ) (name : String) (d : δ) : Prop :=
  ∃ inner outer, s.visible = inner ++ (name, .decoder d) :: outer ∧ ∀ w, (name, Bound.decoder w) ∉ inner

end Doodle
