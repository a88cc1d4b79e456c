import Verif.Model.Name

/-!
Specification vocabulary for generated names: histories of operations, when two paths denote the same place,
and labels that stay clear of the deduplication suffix.
-/

namespace Doodle
namespace Names

/-- an operation on a naming context -/
inductive Op where
  | push (a : NameAtom)
  | incr
  | escape
  | register
  | find (p : Path)

/-- the context after one operation -/
def Ctxt.step (c : Ctxt) : Op → Panicky Ctxt
  | .push a => .ok (c.pushAtom a)
  | .incr => .ok c.incrementIndex
  | .escape => c.escape
  | .register => .ok c.registerPath.2
  | .find p => .ok (c.findNameFor p).2

/-- the context after a history of operations -/
def Ctxt.run : Ctxt → List Op → Panicky Ctxt
  | c, [] => .ok c
  | c, o :: os => c.step o >>= fun c' => Ctxt.run c' os

mutual
/-- a history in which every component entered is left again -/
inductive Nested : List Op → Prop
  | nil : Nested []
  | register {os} : Nested os → Nested (.register :: os)
  | find {p os} : Nested os → Nested (.find p :: os)
  | block {a body os} : Nested body → Nested os → Nested (.push a :: body ++ .escape :: os)
  | counted {i body os} : Counted body → Nested os → Nested (.push (.positional i) :: body ++ .escape :: os)

/-- the same, with moves from one position to the next in between -/
inductive Counted : List Op → Prop
  | nested {os} : Nested os → Counted os
  | next {os os'} : Nested os → Counted os' → Counted (os ++ .incr :: os')
end

/-- the atom is neither an explicitly given name nor a dead end -/
def NameAtom.Plain (a : NameAtom) : Prop := (∀ n, a ≠ .explicit n) ∧ a ≠ .deadEnd

/-- no element is an explicitly given name -/
def Anonymous (p : Path) : Prop := ∀ n, NameAtom.explicit n ∉ p

/-- `s` is the part of the path from its innermost explicitly given name on; the whole path when it has
none -/
def Local (p s : Path) : Prop :=
  (s = p ∧ Anonymous p) ∨ ∃ pre n suf, p = pre ++ .explicit n :: suf ∧ Anonymous suf ∧ s = .explicit n :: suf

/-- two paths denote the same place -/
def SamePlace (p q : Path) : Prop := ∃ s, Local p s ∧ Local q s

/-- the atom's label, if any, does not contain `dupX` -/
def NameAtom.Clean : NameAtom → Prop
  | .explicit l | .recordField l | .variant l | .bind l => ¬ ['d', 'u', 'p', 'X'] <:+: l.toList
  | _ => True

/-- no label of the path contains `dupX` -/
def Path.Clean (p : Path) : Prop := ∀ a ∈ p, a.Clean

/-- an operation on a generator of type names -/
inductive GOp (D : Type) where
  | ctx (o : Op)
  | get (d : D)

variable {D : Type} [DecidableEq D]

/-- the generator after one operation -/
def Gen.step (g : Gen D) : GOp D → Panicky (Gen D)
  | .ctx o => g.ctxt.step o >>= fun c => .ok { g with ctxt := c }
  | .get d => g.getName d >>= fun r => .ok r.2

/-- the generator after a history of operations -/
def Gen.run : Gen D → List (GOp D) → Panicky (Gen D)
  | g, [] => .ok g
  | g, o :: os => g.step o >>= fun g' => Gen.run g' os

/-- the declarations named in a history, each with the path at which it was met -/
def Gen.visits : Gen D → List (GOp D) → List (D × Path)
  | _, [] => []
  | g, o :: os =>
    (match o with | .get d => [(d, g.ctxt.stack)] | .ctx _ => []) ++
      match g.step o with
      | .ok g' => Gen.visits g' os
      | .panic => []

end Names
end Doodle
