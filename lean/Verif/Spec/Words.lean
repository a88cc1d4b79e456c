import Verif.Model.MatchTree

/-!
Specification: the byte strings a format can cover, ignoring what expressions evaluate to.

`Word m f u`: the bytes `u` have the shape of the format `f`.  Conditions on values (`Where`, the condition
of `Maybe`, which branch of a `Match` is taken) are ignored, so every derivation of the format covers a word
of it, but not conversely.  Only formats whose shape is determined by the bytes alone have words; there are
none for `Peek`, `PeekNot`, `Slice`, `Bits`, `Align`, jumps, and loops ended by a condition.  The fallback of
a `Permit` covers no bytes and is not counted as a word of it.
-/

namespace Doodle

mutual
inductive Word (m : Module) : Format → List UInt8 → Prop
  | itemVar {level args views it u} : m.items[level]? = some it → Word m it.format u →
      Word m (.itemVar level args views) u
  | byte {bs b} : bs.contains b = true → Word m (.byte bs) [b]
  | endOfInput : Word m .endOfInput []
  | variant {l f u} : Word m f u → Word m (.variant l f) u
  | union {fs f u} : f ∈ fs → Word m f u → Word m (.union fs) u
  | unionNondet {fs f u} : f ∈ fs → Word m f u → Word m (.unionNondet fs) u
  | tuple {fs u} : Words m fs u → Word m (.tuple fs) u
  | sequence {fs u} : Words m fs u → Word m (.sequence fs) u
  | repeat_ {f n u} : Power m f n u → Word m (.repeat_ f) u
  | repeat1 {f n u} : Power m f (n + 1) u → Word m (.repeat1 f) u
  /-- a count that is statically known -/
  | repeatCount {e f b n u} : e.bounds = .ok b → b.asExact = some n → Power m f n u →
      Word m (.repeatCount e f) u
  | repeatBetween {x y f bx by_ lo hi n u} : x.bounds = .ok bx → bx.asExact = some lo → y.bounds = .ok by_ →
      by_.asExact = some hi → lo ≤ n → n ≤ hi → Power m f n u → Word m (.repeatBetween x y f) u
  | maybe_none {e f} : Word m (.maybe e f) []
  | maybe_some {e f u} : Word m f u → Word m (.maybe e f) u
  | map {f e u} : Word m f u → Word m (.map f e) u
  | where_ {f e b u} : Word m f u → Word m (.where_ f e b) u
  | compute {e} : Word m (.compute e) []
  | let_ {x e f u} : Word m f u → Word m (.let_ x e f) u
  | match_ {head bs p f u} : (p, f) ∈ bs → Word m f u → Word m (.match_ head bs) u
  | letFormat {f x g u v} : Word m f u → Word m g v → Word m (.letFormat f x g) (u ++ v)
  | monadSeq {f g u v} : Word m f u → Word m g v → Word m (.monadSeq f g) (u ++ v)
  | hint {f u} : Word m f u → Word m (.hint f) u
  | liftedNone : Word m .liftedNone []
  | liftedSome {f u} : Word m f u → Word m (.liftedSome f) u
  | letView {x f u} : Word m f u → Word m (.letView x f) u
  | pos : Word m .pos []
  | captureBytes {v e} : Word m (.captureBytes v e) []
  | readArray {v e k} : Word m (.readArray v e k) []
  | reifyView {v} : Word m (.reifyView v) []
  | decodeBytes {e f} : Word m (.decodeBytes e f) []
  | parseFromView {v f} : Word m (.parseFromView v f) []
  | enforce {f u} : Word m f u → Word m (.enforce f) u
  | permit {f e u} : Word m f u → Word m (.permit f e) u

/-- words one after the other -/
inductive Words (m : Module) : List Format → List UInt8 → Prop
  | nil : Words m [] []
  | cons {f fs u v} : Word m f u → Words m fs v → Words m (f :: fs) (u ++ v)

/-- `n` words of one format -/
inductive Power (m : Module) : Format → Nat → List UInt8 → Prop
  | zero {f} : Power m f 0 []
  | succ {f n u v} : Word m f u → Power m f n v → Power m f (n + 1) (u ++ v)
end

/-- concatenation of languages -/
def Cat (A B : List UInt8 → Prop) (w : List UInt8) : Prop := ∃ u v, w = u ++ v ∧ A u ∧ B v

/-- the byte strings that may follow, up to the point where nothing more is known -/
def Follow (m : Module) : Next → List UInt8 → Prop
  | .empty => fun u => u = []
  | .union a b => fun u => Follow m a u ∨ Follow m b u
  | .cat f x => Cat (Word m f) (Follow m x)
  | .sequence fs x => Cat (Words m fs) (Follow m x)
  | .repeat_ f x => Cat (fun u => ∃ n, Power m f n u) (Follow m x)
  | .repeatCount n f x => Cat (Power m f n) (Follow m x)
  | .repeatMax n f x => Cat (fun u => ∃ k, k ≤ n ∧ Power m f k u) (Follow m x)
  | .repeatBetween lo hi f x => Cat (fun u => ∃ k, lo ≤ k ∧ k ≤ hi ∧ Power m f k u) (Follow m x)
  | .slice _ _ _ => fun _ => False
  | .peek _ _ => fun _ => False
  | .peekNot _ _ => fun _ => False

mutual
/-- Formats that have words, and whose words are all the prefix tree knows about them.  Items refer only to
items before them (`k` is the number of items that may be used).  `EndOfInput` is allowed only where nothing
can follow (`last`); `E` tells which items may end with it. -/
def Format.Plain (m : Module) (E : Nat → Bool) (k : Nat) (last : Bool) : Format → Prop
  | .itemVar level _ _ => level < k ∧ level < m.items.length ∧ (E level = true → last = true)
  | .endOfInput => last = true
  | .byte bs => ∃ b, bs.contains b = true
  | .variant _ f => f.Plain m E k last
  | .union fs => fs ≠ [] ∧ Format.EachPlain m E k last fs
  | .unionNondet fs => fs ≠ [] ∧ Format.EachPlain m E k last fs
  | .tuple fs => Format.FieldsPlain m E k last fs
  | .sequence fs => Format.FieldsPlain m E k last fs
  | .repeat_ f => f.Plain m E k false
  | .repeat1 f => f.Plain m E k false
  | .repeatCount e f => (∃ b n, e.bounds = .ok b ∧ b.asExact = some n) ∧ f.Plain m E k false
  | .repeatBetween x y f => (∃ bx by_ lo hi, x.bounds = .ok bx ∧ bx.asExact = some lo ∧ y.bounds = .ok by_ ∧
      by_.asExact = some hi ∧ lo ≤ hi) ∧ f.Plain m E k false
  | .maybe _ f => f.Plain m E k last
  | .map f _ => f.Plain m E k last
  | .where_ f _ _ => f.Plain m E k last
  | .compute _ => True
  | .let_ _ _ f => f.Plain m E k last
  | .match_ _ bs => bs ≠ [] ∧ Format.BranchesPlain m E k last bs
  | .letFormat f _ g => f.Plain m E k false ∧ g.Plain m E k last
  | .monadSeq f g => f.Plain m E k false ∧ g.Plain m E k last
  | .hint f => f.Plain m E k last
  | .liftedNone => True
  | .liftedSome f => f.Plain m E k last
  | .letView _ f => f.Plain m E k last
  | .pos => True
  | .captureBytes _ _ => True
  | .readArray _ _ _ => True
  | .reifyView _ => True
  | .decodeBytes _ _ => True
  | .parseFromView _ _ => True
  | .enforce f => f.Plain m E k last
  | .permit f _ => f.Plain m E k last
  | _ => False

/-- each of the alternatives -/
def Format.EachPlain (m : Module) (E : Nat → Bool) (k : Nat) (last : Bool) : List Format → Prop
  | [] => True
  | f :: fs => f.Plain m E k last ∧ Format.EachPlain m E k last fs

/-- fields one after the other; only the last one may be at the end -/
def Format.FieldsPlain (m : Module) (E : Nat → Bool) (k : Nat) (last : Bool) : List Format → Prop
  | [] => True
  | f :: fs => f.Plain m E k (fs.isEmpty && last) ∧ Format.FieldsPlain m E k last fs

/-- each of the branches -/
def Format.BranchesPlain (m : Module) (E : Nat → Bool) (k : Nat) (last : Bool) : List (Pattern × Format) → Prop
  | [] => True
  | (_, f) :: fs => f.Plain m E k last ∧ Format.BranchesPlain m E k last fs
end

/-- the items of the module are plain and refer only to earlier items -/
def Module.Plain (m : Module) (E : Nat → Bool) : Prop :=
  ∀ (i : Nat) (it : Item), m.items[i]? = some it → it.format.Plain m E i (E i)

/-- nothing follows -/
def Next.isDone : Next → Bool
  | .empty => true
  | .union a b => a.isDone && b.isDone
  | .sequence fs x => fs.isEmpty && x.isDone
  | _ => false

/-- continuations made of plain formats -/
def Next.Plain (m : Module) (E : Nat → Bool) : Next → Prop
  | .empty => True
  | .union a b => a.Plain m E ∧ b.Plain m E
  | .cat f x => f.Plain m E m.items.length x.isDone ∧ x.Plain m E
  | .sequence fs x => Format.FieldsPlain m E m.items.length x.isDone fs ∧ x.Plain m E
  | .repeat_ f x => f.Plain m E m.items.length false ∧ x.Plain m E
  | .repeatCount _ f x => f.Plain m E m.items.length false ∧ x.Plain m E
  | .repeatMax _ f x => f.Plain m E m.items.length false ∧ x.Plain m E
  | .repeatBetween lo hi f x => lo ≤ hi ∧ f.Plain m E m.items.length false ∧ x.Plain m E
  | _ => False

/-- The prefix `u` can be completed to a word of the language. -/
def Viable (L : List UInt8 → Prop) (u : List UInt8) : Prop := ∃ v, L (u ++ v)

end Doodle
