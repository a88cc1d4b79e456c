import Verif.Spec.Progress
import Verif.Spec.Pattern

/-!
Specification: what the operators of expressions compute (C64).  `x.Gives s v` (`Spec/Progress`) says that evaluating `x` in
the scope `s` gives the value `v`, the wrappers removed that formats leave around their results.
-/

namespace Doodle
open Num (BitWidth)

variable {δ : Type}

/-- `Bare v w`: `w` is inside the wrappers around `v`: the results of mapping, of alternatives and of a met permission -/
inductive Bare : Value → Value → Prop
  | mapped {o v w} : Bare v w → Bare (.mapped o v) w
  | branch {n v w} : Bare v w → Bare (.branch n v) w
  | permitOk {v w} : Bare v w → Bare (.permitOk v) w
  | done {v} : (∀ o u, v ≠ .mapped o u) → (∀ n u, v ≠ .branch n u) → (∀ u, v ≠ .permitOk u) → Bare v v

/-- the value is the number `n` of the kind `k` -/
def IsInt (v : Value) (k : UKind) (n : Nat) : Prop := ∃ h, v = .num k ⟨n, h⟩

/-- the value can be used as the index or count `i` -/
inductive IsIndex : Value → Nat → Prop
  | num {k n h} : IsIndex (.num k ⟨n, h⟩) n
  | numeric {c : Num.TypedConst} {n : Nat} : c.val = n → n < 2 ^ 64 → IsIndex (.numeric c) n

/-- the value is a sequence of these items -/
inductive Items : Value → List Value → Prop
  | strict {l} : Items (.seq (.strict l)) l
  | dup {n v} : Items (.seq (.dup n v)) (List.replicate n v)
  | range {a b l} : l.length = b.val - a.val → (∀ (i : Nat) v, l[i]? = some v → IsInt v .usize (a.val + i)) →
      Items (.enumFromTo a b) l

/-- the function `f` takes the argument `a` to `v` -/
def Applies (s : Scope δ) (f : Expr) (a v : Value) : Prop :=
  ∃ name body, f = .lambda name body ∧ body.Gives (.single name a s) v

/-- every expression gives the value at the same place -/
def GivesAll (s : Scope δ) (es : List Expr) (vs : List Value) : Prop :=
  vs.length = es.length ∧ ∀ (i : Nat) e v, es[i]? = some e → vs[i]? = some v → e.Gives s v

/-- `n` is the result of an operation on numbers of kind `k`; that it is in range is said elsewhere (`IsInt`) -/
def ArithIs (op : Arith) (k : UKind) (a b n : Nat) : Prop :=
  match op with
  | .add => n = a + b
  | .sub => n + b = a
  | .mul => n = a * b
  | .div => 0 < b ∧ n = a / b
  | .rem => 0 < b ∧ n = a % b
  | .shl => b % 2 ^ 32 < k.bits ∧ n = a * 2 ^ (b % 2 ^ 32) % 2 ^ k.bits
  | .shr => b % 2 ^ 32 < k.bits ∧ n = a / 2 ^ (b % 2 ^ 32)
  | .bitAnd => ∀ i, n.testBit i = (a.testBit i && b.testBit i)
  | .bitOr => ∀ i, n.testBit i = (a.testBit i || b.testBit i)
  | .boolOr => False
  | .boolAnd => False

/-- the relation holds of two numbers -/
def RelIs (r : IntRel) (a b : Int) : Prop :=
  match r with
  | .eq => a = b
  | .ne => a ≠ b
  | .lt => a < b
  | .gt => b < a
  | .lte => a ≤ b
  | .gte => b ≤ a

/-- a numeric constant that can stand for a number of `w` bits -/
def StandsFor (c : Num.TypedConst) (w : BitWidth) : Prop :=
  (c.rep = .concrete ⟨false, w⟩ ∨ c.rep = .auto) ∧ 0 ≤ c.val ∧ c.val < 2 ^ w.bits

/-- two values that can be compared, and the numbers they stand for -/
inductive Compared : Value → Value → Int → Int → Prop
  | num {k a b ha hb} : Compared (.num k ⟨a, ha⟩) (.num k ⟨b, hb⟩) a b
  | numeric {c d : Num.TypedConst} : Compared (.numeric c) (.numeric d) c.val d.val
  | left {c : Num.TypedConst} {w b h} : StandsFor c w → Compared (.numeric c) (.num (.fixed w) ⟨b, h⟩) c.val b
  | right {c : Num.TypedConst} {w a h} : StandsFor c w → Compared (.num (.fixed w) ⟨a, h⟩) (.numeric c) a c.val

/-- the number that bytes stand for, the last byte counting least -/
def valueBE (l : List UInt8) : Nat := l.foldl (fun n b => 256 * n + b.toNat) 0

/-- a flat-map with accumulator: the accumulator `a` and the items lead to these results -/
inductive AccumMaps (s : Scope δ) (f : Expr) : Value → List Value → List Value → Prop
  | nil {a} : AccumMaps s f a [] []
  | cons {a x xs b q l r} : Applies s f (.tuple [a, x]) (.tuple [b, .seq q]) → Items (.seq q) l → AccumMaps s f b xs r →
      AccumMaps s f a (x :: xs) (l ++ r)

/-- a flat-map that sees the results so far -/
inductive ListMaps (s : Scope δ) (f : Expr) : List Value → List Value → List Value → Prop
  | nil {l} : ListMaps s f l [] l
  | cons {l x xs q r l'} : Applies s f (.tuple [.seq (.strict l), x]) (.seq q) → Items (.seq q) r →
      ListMaps s f (l ++ r) xs l' → ListMaps s f l (x :: xs) l'

/-- a left fold -/
inductive Folds (s : Scope δ) (f : Expr) : Value → List Value → Value → Prop
  | nil {a} : Folds s f a [] a
  | cons {a x xs b r} : Applies s f (.tuple [a, x]) b → Folds s f b xs r → Folds s f a (x :: xs) r

/-- a flat-map: the items of the results, in order -/
inductive Maps (s : Scope δ) (f : Expr) : List Value → List Value → Prop
  | nil : Maps s f [] []
  | cons {x xs v l r} : Applies s f x v → Items v l → Maps s f xs r → Maps s f (x :: xs) (l ++ r)

/-- Copying items from a place on, one at a time, to the end of the list, so that copied items can be copied again. -/
inductive CopiesFrom : Nat → Nat → List Value → List Value → Prop
  | nil {i l} : CopiesFrom i 0 l []
  | cons {i n l v out} : l[i]? = some v → CopiesFrom (i + 1) n (l ++ [v]) out → CopiesFrom i (n + 1) l (v :: out)

/-- the function gives the item `x` a key, a number of the width of `q`, that is `q` just if `p` -/
def KeyIs (s : Scope δ) (f : Expr) (q x : Value) (p : Prop) : Prop :=
  ∃ k w a c, Applies s f x k ∧ IsInt q (.fixed w) a ∧ IsInt k (.fixed w) c ∧ (p ↔ a = c)

end Doodle
