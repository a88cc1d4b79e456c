import Verif.Model.TypeAnalysis

/-!
Specification for the analyses of generated types (C65): which definitions the generator makes, and which types are `Copy` by
the rules of Rust.
-/

namespace Doodle
namespace TypeAnalysis

/-- the types of all fields of a definition -/
def TypeDef.parts : TypeDef → List RType
  | .struct fs => fs
  | .enum vs => vs.flatMap fun
    | .unit => []
    | .tuple ts => ts

/-- A type is `Copy` by the rules of Rust (std::marker::Copy): scalars, shared references, `PhantomData`, tuples and `Option` of
`Copy` types, and a type that derives `Copy`, which it may do if the types of all its fields are `Copy`.  Arrays that are read on
demand and views are made of shared references and scalars. -/
inductive IsCopy (defs : List TypeDef) : RType → Prop
  | prim {p} : IsCopy defs (.prim p)
  | signed {w} : IsCopy defs (.signed w)
  | shared {t} : IsCopy defs (.borrow false t)
  | phantomData {t} : IsCopy defs (.phantomData t)
  | readArray : IsCopy defs .readArray
  | viewObject : IsCopy defs .viewObject
  | option {t} : IsCopy defs t → IsCopy defs (.option t)
  | result {t e} : IsCopy defs t → IsCopy defs e → IsCopy defs (.result t e)
  | tuple {ts} : (∀ t ∈ ts, IsCopy defs t) → IsCopy defs (.tuple ts)
  | localDef {ix d} : defs[ix]? = some d → (∀ t ∈ d.parts, IsCopy defs t) → IsCopy defs (.localDef ix)

/-- deriving `Copy` for the definition is accepted by the compiler -/
def TypeDef.MayDeriveCopy (defs : List TypeDef) (d : TypeDef) : Prop := ∀ t ∈ d.parts, IsCopy defs t

mutual
/-- The types that may stand in a generated definition (src/codegen/mod.rs:134-285): scalars, `Vec`, `Option`, `PhantomData`,
tuples, slices behind a shared reference, arrays that are read on demand, views, and definitions made earlier, numbered below
`n`. -/
def RType.Generated (n : Nat) : RType → Prop
  | .prim _ => True
  | .signed _ => True
  | .localDef ix => ix < n
  | .vec _ => True
  | .option t => RType.Generated n t
  | .borrow isMut _ => isMut = false
  | .phantomData _ => True
  | .tuple ts => RType.AllGenerated n ts
  | .readArray => True
  | .viewObject => True
  | .external => False
  | .rawSlice _ => False
  | .result _ _ => False
  | .verbatim => False

/-- each of them -/
def RType.AllGenerated (n : Nat) : List RType → Prop
  | [] => True
  | t :: ts => RType.Generated n t ∧ RType.AllGenerated n ts
end

/-- a definition the generator makes, after `n` others -/
def TypeDef.Generated (n : Nat) : TypeDef → Prop
  | .struct fs => RType.AllGenerated n fs
  | .enum vs => vs ≠ [] ∧ ∀ ts, RVariant.tuple ts ∈ vs → RType.AllGenerated n ts

/-- all definitions of a program, in the order in which they are made -/
def AllGenerated (defs : List TypeDef) : Prop := ∀ (i : Nat) d, defs[i]? = some d → d.Generated i

mutual
/-- no `Option` directly inside of an `Option` -/
def RType.NoNested : RType → Prop
  | .option (.option _) => False
  | .option t => RType.NoNested t
  | .tuple ts => RType.NoneNested ts
  | _ => True

/-- in none of them -/
def RType.NoneNested : List RType → Prop
  | [] => True
  | t :: ts => RType.NoNested t ∧ RType.NoneNested ts
end

/-- in no field of the definition -/
def TypeDef.NoNested : TypeDef → Prop
  | .struct fs => RType.NoneNested fs
  | .enum vs => ∀ ts, RVariant.tuple ts ∈ vs → RType.NoneNested ts

/-- One question about a definition is asked and answered, with the table `c` before and `c'` after it. -/
inductive Asked (defs : List TypeDef) (st : Strategy) : Cache → Cache → Prop
  | niches {d n c c' r} : TypeDef.niches (Ctx.cached defs st n) d c = .ok (r, c') → Asked defs st c c'
  | size {d n c c' r} : TypeDef.sizeHint (Ctx.cached defs st n) d c = .ok (r, c') → Asked defs st c c'
  | align {d n c c' r} : TypeDef.alignHint (Ctx.cached defs st n) d c = .ok (r, c') → Asked defs st c c'
  | copy {d n c c' r} : TypeDef.copyHint (Ctx.cached defs st n) d c = .ok (r, c') → Asked defs st c c'
  | heap {d n c c' r} : TypeDef.heapHint (Ctx.cached defs st n) st d c = .ok (r, c') → Asked defs st c c'

/-- the tables after any questions, in any order -/
inductive Reachable (defs : List TypeDef) (st : Strategy) : Cache → Prop
  | empty : Reachable defs st emptyCache
  | asked {c c'} : Reachable defs st c → Asked defs st c c' → Reachable defs st c'

/-- the answer, without the table -/
def answer {α : Type} : Outcome Unit (α × Cache) → Outcome Unit α
  | .ok r => .ok r.1
  | .err e => .err e
  | .panic => .panic
  | .fuel => .fuel

/-- it is the smallest multiple of `align` that is not less than `size` -/
def RoundedUp (size align r : Nat) : Prop := align ∣ r ∧ size ≤ r ∧ ∀ k, align ∣ k → size ≤ k → r ≤ k

/-- `n` is the sum of the sizes of the types -/
inductive SumOfSizes (C : Ctx (Outcome Unit)) : List RType → Nat → Prop
  | nil : SumOfSizes C [] 0
  | cons {t ts s n} : t.sizeHint C = .ok s → SumOfSizes C ts n → SumOfSizes C (t :: ts) (s + n)

/-- `a` is the largest of the alignments of the types, or 1 -/
def LargestAlign (C : Ctx (Outcome Unit)) (ts : List RType) (a : Nat) : Prop :=
  (∀ t ∈ ts, ∃ b, t.alignHint C = .ok b ∧ b ≤ a) ∧ (a = 1 ∨ ∃ t ∈ ts, t.alignHint C = .ok a)

/-- the room for these fields: their sizes together, rounded up to the largest alignment -/
def Room (C : Ctx (Outcome Unit)) (ts : List RType) (r : Nat) : Prop :=
  ∃ n a, SumOfSizes C ts n ∧ LargestAlign C ts a ∧ RoundedUp n a r

/-- the fields of a variant -/
def RVariant.fields : RVariant → List RType
  | .unit => []
  | .tuple ts => ts

/-- The room for a definition with the alignment `a`: for a `struct` that for its fields; for an `enum` that for the largest
variant and one byte that tells which variant it is, rounded up. -/
def TypeDef.Room (C : Ctx (Outcome Unit)) (a r : Nat) : TypeDef → Prop
  | .struct fs => TypeAnalysis.Room C fs r
  | .enum vs => ∃ m, (∀ v ∈ vs, ∃ q, TypeAnalysis.Room C v.fields q ∧ q ≤ m) ∧ (∃ v ∈ vs, TypeAnalysis.Room C v.fields m) ∧
      RoundedUp (m + 1) a r

end TypeAnalysis
end Doodle
