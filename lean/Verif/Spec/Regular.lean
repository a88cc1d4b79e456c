import Verif.Spec.Words
import Verif.Spec.Grammar
import Verif.Model.Compile

/-!
Specification: the formats for which completeness of the compiled decoder is stated (C12).  They are made of
the formats of `Verif.Spec.Words`; where the compiler does not use what follows, no word of the format may
be the beginning of another.
-/

namespace Doodle

open Grammar

/-- No word of the format is a proper beginning of another word of it. -/
def PrefixFree (m : Module) (f : Format) : Prop := ∀ u p, Word m f u → Word m f (u ++ p) → p = []

mutual
/-- `P` holds for the format and all formats inside it -/
def Format.Each (P : Format → Prop) : Format → Prop
  | .variant l f => P (.variant l f) ∧ f.Each P
  | .union fs => P (.union fs) ∧ Format.EachOf P fs
  | .unionNondet fs => P (.unionNondet fs) ∧ Format.EachOf P fs
  | .tuple fs => P (.tuple fs) ∧ Format.EachOf P fs
  | .sequence fs => P (.sequence fs) ∧ Format.EachOf P fs
  | .repeat_ f => P (.repeat_ f) ∧ f.Each P
  | .repeat1 f => P (.repeat1 f) ∧ f.Each P
  | .repeatCount e f => P (.repeatCount e f) ∧ f.Each P
  | .repeatBetween x y f => P (.repeatBetween x y f) ∧ f.Each P
  | .repeatUntilLast e f => P (.repeatUntilLast e f) ∧ f.Each P
  | .repeatUntilSeq e f => P (.repeatUntilSeq e f) ∧ f.Each P
  | .accumUntil e1 e2 e3 ty f => P (.accumUntil e1 e2 e3 ty f) ∧ f.Each P
  | .forEach e l f => P (.forEach e l f) ∧ f.Each P
  | .maybe e f => P (.maybe e f) ∧ f.Each P
  | .peek f => P (.peek f) ∧ f.Each P
  | .peekNot f => P (.peekNot f) ∧ f.Each P
  | .slice e f => P (.slice e f) ∧ f.Each P
  | .bits f => P (.bits f) ∧ f.Each P
  | .withRelativeOffset e1 e2 f => P (.withRelativeOffset e1 e2 f) ∧ f.Each P
  | .map f e => P (.map f e) ∧ f.Each P
  | .where_ f e b => P (.where_ f e b) ∧ f.Each P
  | .let_ x e f => P (.let_ x e f) ∧ f.Each P
  | .match_ e bs => P (.match_ e bs) ∧ Format.EachBranchOf P bs
  | .dynamic x e1 e2 f => P (.dynamic x e1 e2 f) ∧ f.Each P
  | .decodeBytes e f => P (.decodeBytes e f) ∧ f.Each P
  | .letFormat f x g => P (.letFormat f x g) ∧ f.Each P ∧ g.Each P
  | .monadSeq f g => P (.monadSeq f g) ∧ f.Each P ∧ g.Each P
  | .hint f => P (.hint f) ∧ f.Each P
  | .liftedSome f => P (.liftedSome f) ∧ f.Each P
  | .letView x f => P (.letView x f) ∧ f.Each P
  | .parseFromView v f => P (.parseFromView v f) ∧ f.Each P
  | .phantom f => P (.phantom f) ∧ f.Each P
  | .enforce f => P (.enforce f) ∧ f.Each P
  | .permit f e => P (.permit f e) ∧ f.Each P
  | f => P f

def Format.EachOf (P : Format → Prop) : List Format → Prop
  | [] => True
  | f :: fs => f.Each P ∧ Format.EachOf P fs

def Format.EachBranchOf (P : Format → Prop) : List (Pattern × Format) → Prop
  | [] => True
  | (_, f) :: fs => f.Each P ∧ Format.EachBranchOf P fs
end

/-- Side conditions at one format.  `trailing`: bytes may be left over by a `DecodeBytes`. -/
def Format.RegularHere (m : Module) (E : Nat → Bool) (o : BuildOpts) (trailing : Bool) : Format → Prop
  | .itemVar level _ views => (∀ v ∈ views, ∃ x, v = .var x) ∧
      ∀ it, m.items[level]? = some it → it.format.dependsOnNext m o = .ok true ∨ PrefixFree m it.format
  | .maybe _ f => PrefixFree m f
  | .repeatCount e f => PrefixFree m f ∧
      ∀ (s : Scope Format) n, DenotesNat e s n → ∃ b, e.bounds = .ok b ∧ b.asExact = some n
  | .repeatBetween _ _ _ => False
  | .decodeBytes _ f => f.Plain m E m.items.length true ∧ (trailing = true → PrefixFree m f)
  | .parseFromView v f => (∃ x, v = .var x) ∧ f.Plain m E m.items.length true ∧ PrefixFree m f
  | .captureBytes v _ => ∃ x, v = .var x
  | .reifyView v => ∃ x, v = .var x
  | .readArray _ _ _ => False
  | _ => True

/-- the format meets the side conditions everywhere -/
def Format.Regular (m : Module) (E : Nat → Bool) (o : BuildOpts) (trailing : Bool) (f : Format) : Prop :=
  f.Each (Format.RegularHere m E o trailing)

/-- so do the items of the module -/
def Module.Regular (m : Module) (E : Nat → Bool) (o : BuildOpts) (trailing : Bool) : Prop :=
  ∀ (i : Nat) (it : Item), m.items[i]? = some it → it.format.Regular m E o trailing

end Doodle
