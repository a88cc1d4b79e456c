import Verif.Model.Panicky

/-! Outcome type of the functions of the interpreter that can fail, panic, or fail to terminate. -/

namespace Doodle

/-- Outcome of a computation run with a bound on its recursion depth: a value, an ordinary `Err`, a
panic, or `fuel` when the bound was too small to tell.  Theorems speak about every bound, so `fuel`
stands for "not finished yet"; a computation that yields `fuel` for every bound never terminates. -/
inductive Outcome (ε α : Type) where
  | ok (a : α)
  | err (e : ε)
  | panic
  | fuel
deriving DecidableEq, Repr

namespace Outcome
variable {ε α β : Type}

/-- sequencing (`?`): anything but `ok` aborts what follows -/
def bind : Outcome ε α → (α → Outcome ε β) → Outcome ε β
  | .ok a, f => f a
  | .err e, _ => .err e
  | .panic, _ => .panic
  | .fuel, _ => .fuel

instance : Monad (Outcome ε) where
  pure := .ok
  bind := bind

/-- code that can only panic -/
def ofPanicky : Panicky α → Outcome ε α
  | .ok a => .ok a
  | .panic => .panic

/-- `Option::ok_or(e)?` -/
def ofOption (e : ε) : Option α → Outcome ε α
  | some a => .ok a
  | none => .err e

@[simp] theorem bind_ok (a : α) (f : α → Outcome ε β) : (Outcome.ok a >>= f) = f a := rfl
@[simp] theorem bind_err (e : ε) (f : α → Outcome ε β) : (Outcome.err e >>= f) = .err e := rfl
@[simp] theorem bind_panic (f : α → Outcome ε β) : (Outcome.panic >>= f) = .panic := rfl
@[simp] theorem bind_fuel (f : α → Outcome ε β) : (Outcome.fuel >>= f) = .fuel := rfl

theorem bind_eq_ok {x : Outcome ε α} {f : α → Outcome ε β} {b : β} :
    (x >>= f) = .ok b ↔ ∃ a, x = .ok a ∧ f a = .ok b := by
  cases x with
  | ok a => exact ⟨(fun h => ⟨a, rfl, h⟩), (fun ⟨a', h1, h2⟩ => by cases h1; exact h2)⟩
  | err e => exact ⟨(fun h => by cases h), (fun ⟨a', h1, _⟩ => by cases h1)⟩
  | panic => exact ⟨(fun h => by cases h), (fun ⟨a', h1, _⟩ => by cases h1)⟩
  | fuel => exact ⟨(fun h => by cases h), (fun ⟨a', h1, _⟩ => by cases h1)⟩

theorem ofPanicky_eq_ok {x : Panicky α} {a : α} :
    (ofPanicky x : Outcome ε α) = .ok a ↔ x = .ok a := by
  cases x with
  | ok b => exact ⟨(fun h => by cases h; rfl), (fun h => by cases h; rfl)⟩
  | panic => exact ⟨(fun h => by cases h), (fun h => by cases h)⟩

theorem ofOption_eq_ok {e : ε} {x : Option α} {a : α} : ofOption e x = .ok a ↔ x = some a := by
  cases x with
  | some b => exact ⟨(fun h => by cases h; rfl), (fun h => by cases h; rfl)⟩
  | none => exact ⟨(fun h => by cases h), (fun h => by cases h)⟩

/-- `y` says at least as much as `x`: they agree unless `x` ran out of fuel. -/
def le (x y : Outcome ε α) : Prop := x ≠ .fuel → y = x

theorem le_refl (x : Outcome ε α) : x.le x := fun _ => rfl

theorem le_bind {x y : Outcome ε α} {f g : α → Outcome ε β} (hxy : x.le y)
    (hfg : ∀ a, (f a).le (g a)) : (x >>= f).le (y >>= g) := by
  intro h
  cases x with
  | ok a =>
    rw [hxy (by intro h'; cases h')]
    exact hfg a h
  | err e => rw [hxy (by intro h'; cases h')]; rfl
  | panic => rw [hxy (by intro h'; cases h')]; rfl
  | fuel => exact absurd rfl h

theorem le_fuel (y : Outcome ε α) : (Outcome.fuel : Outcome ε α).le y := fun h => absurd rfl h

end Outcome
end Doodle
