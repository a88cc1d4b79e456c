/-! Outcome type of code that may panic. -/

namespace Doodle

/-- Outcome of code that may hit `unreachable!()`, an `unwrap` on `None`, an index out of range or an
overflow check (debug build).  `panic` is distinct from every ordinary `Err` value. -/
inductive Panicky (α : Type) where
  | ok (a : α)
  | panic
deriving DecidableEq, Repr

namespace Panicky

/-- sequencing: a panic aborts everything after it -/
def bind {α β : Type} : Panicky α → (α → Panicky β) → Panicky β
  | .ok a, f => f a
  | .panic, _ => .panic

instance : Monad Panicky where
  pure := .ok
  bind := bind

/-- `Option::unwrap` / `Option::expect` (std). -/
def unwrap {α : Type} : Option α → Panicky α
  | some a => .ok a
  | none => .panic

theorem bind_eq_ok {α β : Type} {x : Panicky α} {f : α → Panicky β} {b : β} :
    (x >>= f) = .ok b ↔ ∃ a, x = .ok a ∧ f a = .ok b := by
  cases x with
  | ok a => exact ⟨(fun h => ⟨a, rfl, h⟩), (fun ⟨a', h1, h2⟩ => by cases h1; exact h2)⟩
  | panic => exact ⟨(fun h => by cases h), (fun ⟨a', h1, _⟩ => by cases h1)⟩

end Panicky
end Doodle
