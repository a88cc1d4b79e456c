/-!
Specification vocabulary for printed operator expressions: how a sequence of tokens is read by the usual
rules of operator precedence.
-/

namespace Doodle
namespace Reading

/-- A token of an operator expression. -/
inductive Tok (α β π ρ : Type) where
  | atom (a : α)
  | bin (o : β)
  | pre (o : π)
  | post (o : ρ)
  | lp
  | rp
deriving DecidableEq, Repr

/-- An operator expression. -/
inductive Tree (α β π ρ : Type) where
  | atom (a : α)
  | bin (o : β) (l r : Tree α β π ρ)
  | pre (o : π) (e : Tree α β π ρ)
  | post (o : ρ) (e : Tree α β π ρ)
deriving DecidableEq, Repr

/-- The rules of a language of operator expressions: how tightly infix operators bind (`level`, higher is
tighter), which of them cannot be chained, which prefix operators extend as far to the right as possible,
and which postfix operators are applied before prefix ones.  All infix operators associate to the left.
From tight to loose: near postfix operators, prefix operators, other postfix operators, infix operators. -/
structure Rules (β π ρ : Type) where
  level : β → Nat
  unchained : β → Bool
  far : π → Bool
  near : ρ → Bool

variable {α β π ρ : Type}

/-- the next token is an infix operator of this level -/
def nextIs (R : Rules β π ρ) (level : Nat) : List (Tok α β π ρ) → Bool
  | .bin o :: _ => R.level o == level
  | _ => false

/-- the near postfix operators after an expression already read -/
def tail (R : Rules β π ρ) : Tree α β π ρ → List (Tok α β π ρ) → Tree α β π ρ × List (Tok α β π ρ)
  | e, .post o :: rest => if R.near o then tail R (.post o e) rest else (e, .post o :: rest)
  | e, ts => (e, ts)

mutual
/-- an expression: a far-reaching prefix operator with the expression after it, or a chain of operators -/
def expr (R : Rules β π ρ) : Nat → List (Tok α β π ρ) → Option (Tree α β π ρ × List (Tok α β π ρ))
  | 0, _ => none
  | n + 1, ts =>
    match ts with
    | .pre o :: rest =>
      if R.far o then (expr R n rest).map fun r => (.pre o r.1, r.2) else chain R n 0 ts
    | _ => chain R n 0 ts

/-- an operand, and infix operators of at least level `min` with their right operands -/
def chain (R : Rules β π ρ) : Nat → Nat → List (Tok α β π ρ) →
    Option (Tree α β π ρ × List (Tok α β π ρ))
  | 0, _, _ => none
  | n + 1, min, ts => (operand R n ts).bind fun r => more R n min r.1 r.2

/-- an atom or a parenthesised expression with near postfix operators, or a prefix operator with its
operand -/
def operand (R : Rules β π ρ) : Nat → List (Tok α β π ρ) →
    Option (Tree α β π ρ × List (Tok α β π ρ))
  | 0, _ => none
  | n + 1, ts =>
    match ts with
    | .atom a :: rest => some (tail R (.atom a) rest)
    | .pre o :: rest => if R.far o then none else (operand R n rest).map fun r => (.pre o r.1, r.2)
    | .lp :: rest => (expr R n rest).bind fun r =>
        match r.2 with
        | .rp :: rest' => some (tail R r.1 rest')
        | _ => none
    | _ => none

/-- what follows an expression already read: postfix operators, infix operators of at least level `min` -/
def more (R : Rules β π ρ) : Nat → Nat → Tree α β π ρ → List (Tok α β π ρ) →
    Option (Tree α β π ρ × List (Tok α β π ρ))
  | 0, _, _, _ => none
  | n + 1, min, lhs, ts =>
    match ts with
    | .post o :: rest => if R.near o then none else more R n min (.post o lhs) rest
    | .bin o :: rest =>
      if min ≤ R.level o then
        (chain R n (R.level o + 1) rest).bind fun r =>
          if R.unchained o && nextIs R (R.level o) r.2 then none else more R n min (.bin o lhs r.1) r.2
      else some (lhs, ts)
    | _ => some (lhs, ts)
end

/-- The tokens are read as the expression `e` (the recursion bound does not matter once it is large). -/
def ReadAs (R : Rules β π ρ) (ts : List (Tok α β π ρ)) (e : Tree α β π ρ) : Prop :=
  ∃ N, ∀ n, N ≤ n → expr R n ts = some (e, [])

/-- Reading is unambiguous. -/
theorem ReadAs.unique {R : Rules β π ρ} {ts : List (Tok α β π ρ)} {e e' : Tree α β π ρ} (h : ReadAs R ts e)
    (h' : ReadAs R ts e') : e = e' := by
  obtain ⟨N, h⟩ := h
  obtain ⟨N', h'⟩ := h'
  have := (h (max N N') (by omega)).symm.trans (h' (max N N') (by omega))
  simp only [Option.some.injEq, Prod.mk.injEq, and_true] at this
  exact this

end Reading
end Doodle
