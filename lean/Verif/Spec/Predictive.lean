import Verif.Spec.Grammar

/-!
Specification: formats for which one byte of lookahead decides every choice (the `LL(1)` condition of textbooks),
for the statement of completeness in C12.

`Skips m f`: the format `f` may read nothing, with more input left.  `Starts m f b`: it may read something, the first
byte being `b`.  Both ignore what expressions evaluate to, so they hold more often than necessary.  Items may
be recursive.

`Format.Predictive m Φ tr sm F f`: at every choice inside `f`, the bytes that announce one alternative are distinct
from those that announce the others.  `F` is the set of bytes that may come after `f`, and `Φ` gives, for each
item of the module, the bytes that may come after it.  Counts may depend on the data.
-/

namespace Doodle

open Grammar

/-- The format may read nothing, although there is more input. -/
inductive Skips (m : Module) : Format → Prop
  | itemVar {level args views it} : m.items[level]? = some it → Skips m it.format → Skips m (.itemVar level args views)
  | align {n} : Skips m (.align n)
  | variant {l f} : Skips m f → Skips m (.variant l f)
  | union {fs f} : f ∈ fs → Skips m f → Skips m (.union fs)
  | unionNondet {fs f} : f ∈ fs → Skips m f → Skips m (.unionNondet fs)
  | tuple {fs} : (∀ f ∈ fs, Skips m f) → Skips m (.tuple fs)
  | sequence {fs} : (∀ f ∈ fs, Skips m f) → Skips m (.sequence fs)
  | repeat_ {f} : Skips m (.repeat_ f)
  | repeat1 {f} : Skips m f → Skips m (.repeat1 f)
  /-- a count that is not known to be positive -/
  | repeatCount_zero {e f} : (∀ b, e.bounds = .ok b → b.min = 0) → Skips m (.repeatCount e f)
  | repeatCount_some {e f} : Skips m f → Skips m (.repeatCount e f)
  | repeatBetween {x y f} : Skips m (.repeatBetween x y f)
  | repeatUntilLast {e f} : Skips m f → Skips m (.repeatUntilLast e f)
  | repeatUntilSeq {e f} : Skips m f → Skips m (.repeatUntilSeq e f)
  | accumUntil {e1 e2 e3 ty f} : Skips m (.accumUntil e1 e2 e3 ty f)
  | forEach {e l f} : Skips m (.forEach e l f)
  | maybe {e f} : Skips m (.maybe e f)
  | peek {f} : Skips m (.peek f)
  | peekNot {f} : Skips m (.peekNot f)
  | slice {e f} : Skips m (.slice e f)
  | bits {f} : Skips m (.bits f)
  | withRelativeOffset {e1 e2 f} : Skips m (.withRelativeOffset e1 e2 f)
  | map {f e} : Skips m f → Skips m (.map f e)
  | where_ {f e b} : Skips m f → Skips m (.where_ f e b)
  | compute {e} : Skips m (.compute e)
  | let_ {x e f} : Skips m f → Skips m (.let_ x e f)
  | match_ {head bs p f} : (p, f) ∈ bs → Skips m f → Skips m (.match_ head bs)
  | dynamic {x ls vs f} : Skips m f → Skips m (.dynamic x ls vs f)
  | apply {x} : Skips m (.apply x)
  | pos : Skips m .pos
  | decodeBytes {e f} : Skips m (.decodeBytes e f)
  | parseFromView {v f} : Skips m (.parseFromView v f)
  | letFormat {f x g} : Skips m f → Skips m g → Skips m (.letFormat f x g)
  | monadSeq {f g} : Skips m f → Skips m g → Skips m (.monadSeq f g)
  | hint {f} : Skips m f → Skips m (.hint f)
  | liftedNone : Skips m .liftedNone
  | liftedSome {f} : Skips m f → Skips m (.liftedSome f)
  | letView {x f} : Skips m f → Skips m (.letView x f)
  | captureBytes {v e} : Skips m (.captureBytes v e)
  | readArray {v e k} : Skips m (.readArray v e k)
  | reifyView {v} : Skips m (.reifyView v)
  | phantom {f} : Skips m (.phantom f)
  | enforce {f} : Skips m f → Skips m (.enforce f)
  | permit {f e} : Skips m f → Skips m (.permit f e)

/-- The format may read something, beginning with the byte `b`. -/
inductive Starts (m : Module) : Format → UInt8 → Prop
  | itemVar {level args views it b} : m.items[level]? = some it → Starts m it.format b →
      Starts m (.itemVar level args views) b
  | align {n b} : n ≠ 1 → Starts m (.align n) b
  | byte {bs b} : bs.contains b = true → Starts m (.byte bs) b
  | variant {l f b} : Starts m f b → Starts m (.variant l f) b
  | union {fs f b} : f ∈ fs → Starts m f b → Starts m (.union fs) b
  | unionNondet {fs f b} : f ∈ fs → Starts m f b → Starts m (.unionNondet fs) b
  /-- the first of the fields that reads something -/
  | tuple {fs pre f post b} : fs = pre ++ f :: post → (∀ g ∈ pre, Skips m g) → Starts m f b → Starts m (.tuple fs) b
  | sequence {fs pre f post b} : fs = pre ++ f :: post → (∀ g ∈ pre, Skips m g) → Starts m f b →
      Starts m (.sequence fs) b
  | repeat_ {f b} : Starts m f b → Starts m (.repeat_ f) b
  | repeat1 {f b} : Starts m f b → Starts m (.repeat1 f) b
  | repeatCount {e f b} : Starts m f b → Starts m (.repeatCount e f) b
  | repeatBetween {x y f b} : Starts m f b → Starts m (.repeatBetween x y f) b
  | repeatUntilLast {e f b} : Starts m f b → Starts m (.repeatUntilLast e f) b
  | repeatUntilSeq {e f b} : Starts m f b → Starts m (.repeatUntilSeq e f) b
  | accumUntil {e1 e2 e3 ty f b} : Starts m f b → Starts m (.accumUntil e1 e2 e3 ty f) b
  | forEach {e l f b} : Starts m f b → Starts m (.forEach e l f) b
  | maybe {e f b} : Starts m f b → Starts m (.maybe e f) b
  /-- reads nothing, but asks for such a byte -/
  | peek {f b} : Starts m f b → Starts m (.peek f) b
  | slice {e f b} : Starts m (.slice e f) b
  | bits {f b} : Starts m (.bits f) b
  | map {f e b} : Starts m f b → Starts m (.map f e) b
  | where_ {f e s b} : Starts m f b → Starts m (.where_ f e s) b
  | let_ {x e f b} : Starts m f b → Starts m (.let_ x e f) b
  | match_ {head bs p f b} : (p, f) ∈ bs → Starts m f b → Starts m (.match_ head bs) b
  | dynamic {x ls vs f b} : Starts m f b → Starts m (.dynamic x ls vs f) b
  | apply {x b} : Starts m (.apply x) b
  | skipRemainder {b} : Starts m .skipRemainder b
  | letFormat {f x g b} : Starts m f b → Starts m (.letFormat f x g) b
  | letFormat_skip {f x g b} : Skips m f → Starts m g b → Starts m (.letFormat f x g) b
  | monadSeq {f g b} : Starts m f b → Starts m (.monadSeq f g) b
  | monadSeq_skip {f g b} : Skips m f → Starts m g b → Starts m (.monadSeq f g) b
  | hint {f b} : Starts m f b → Starts m (.hint f) b
  | liftedSome {f b} : Starts m f b → Starts m (.liftedSome f) b
  | letView {x f b} : Starts m f b → Starts m (.letView x f) b
  | enforce {f b} : Starts m f b → Starts m (.enforce f) b
  | permit {f e b} : Starts m f b → Starts m (.permit f e) b

/-- The byte `b` announces the format, when the bytes `F` may follow it. -/
def Announces (m : Module) (F : UInt8 → Prop) (f : Format) (b : UInt8) : Prop := Starts m f b ∨ (Skips m f ∧ F b)

/-- The count is not less than its static lower bound, and equal to it where it is statically known. -/
def CountKnown (e : Expr) : Prop :=
  ∀ (s : Scope Format) n bd, DenotesNat e s n → e.bounds = .ok bd → bd.min ≤ n ∧ ∀ k, bd.asExact = some k → n = k

mutual
/-- One byte decides every choice inside the format; see the head of this file.  `tr`: bytes may be left over by
a `DecodeBytes`.  `sm`: the format may compute positions (`Slice`, `Align`, `WithRelativeOffset`); it then may not
leave its input for another one, of which nothing says that its size fits a machine word. -/
def Format.Predictive (m : Module) (Φ : Nat → UInt8 → Prop) (tr sm : Bool) (F : UInt8 → Prop) : Format → Prop
  | .itemVar level _ views => (∀ v ∈ views, ∃ x, v = .var x) ∧ ∀ b, F b → Φ level b
  | .variant _ f => f.Predictive m Φ tr sm F
  | .union fs => Format.EachPredictive m Φ tr sm F fs ∧
      ∀ (i j : Nat) f g b, i ≠ j → fs[i]? = some f → fs[j]? = some g → ¬ (Announces m F f b ∧ Announces m F g b)
  | .unionNondet fs => Format.EachPredictive m Φ tr sm F fs
  | .tuple fs => Format.FieldsPredictive m Φ tr sm F fs
  | .sequence fs => Format.FieldsPredictive m Φ tr sm F fs
  | .repeat_ f => ¬ Skips m f ∧ (∀ b, ¬ (Starts m f b ∧ F b)) ∧ f.Predictive m Φ tr sm fun b => Starts m f b ∨ F b
  | .repeat1 f => ¬ Skips m f ∧ (∀ b, ¬ (Starts m f b ∧ F b)) ∧ f.Predictive m Φ tr sm fun b => Starts m f b ∨ F b
  | .repeatCount e f => CountKnown e ∧ f.Predictive m Φ tr sm fun b => Starts m f b ∨ F b
  | .repeatUntilLast _ f => f.Predictive m Φ tr sm fun b => Starts m f b ∨ F b
  | .repeatUntilSeq _ f => f.Predictive m Φ tr sm fun b => Starts m f b ∨ F b
  | .accumUntil _ _ _ _ f => f.Predictive m Φ tr sm fun b => Starts m f b ∨ F b
  | .forEach _ _ f => (∀ bd, f.matchBounds m = .ok bd → bd.max ≠ some 0) ∧
      f.Predictive m Φ tr sm fun b => Starts m f b ∨ F b
  | .maybe _ f => f.Predictive m Φ tr sm F
  | .peek f => f.Predictive m Φ tr sm fun _ => True
  -- a length of which nothing is statically known
  | .slice e f => sm = true ∧ (∀ bd, e.bounds = .ok bd → bd.min = 0 ∧ bd.asExact = none) ∧
      f.Predictive m Φ tr sm fun _ => True
  | .align _ => sm = true
  | .withRelativeOffset _ _ f => sm = true ∧ f.Predictive m Φ tr sm fun _ => True
  | .map f _ => f.Predictive m Φ tr sm F
  | .where_ f _ _ => f.Predictive m Φ tr sm F
  | .let_ _ _ f => f.Predictive m Φ tr sm F
  | .match_ _ bs => Format.BranchesPredictive m Φ tr sm F bs
  | .letFormat f _ g => (f.Predictive m Φ tr sm fun b => Announces m F g b) ∧ g.Predictive m Φ tr sm F
  | .monadSeq f g => (f.Predictive m Φ tr sm fun b => Announces m F g b) ∧ g.Predictive m Φ tr sm F
  | .hint f => f.Predictive m Φ tr sm F
  | .liftedSome f => f.Predictive m Φ tr sm F
  | .letView _ f => f.Predictive m Φ tr sm F
  | .captureBytes v _ => ∃ x, v = .var x
  | .reifyView v => ∃ x, v = .var x
  | .decodeBytes _ f => sm = false ∧ f.Predictive m Φ tr sm fun _ => tr = true
  | .parseFromView v f => sm = false ∧ (∃ x, v = .var x) ∧ f.Predictive m Φ tr sm fun _ => True
  | .enforce f => f.Predictive m Φ tr sm F
  | .permit f _ => f.Predictive m Φ tr sm F
  | .repeatBetween _ _ _ => False
  | .peekNot _ => False
  | .bits _ => False
  | .dynamic _ _ _ _ => False
  | .apply _ => False
  | .readArray _ _ _ => False
  | _ => True

/-- each of the alternatives -/
def Format.EachPredictive (m : Module) (Φ : Nat → UInt8 → Prop) (tr sm : Bool) (F : UInt8 → Prop) : List Format → Prop
  | [] => True
  | f :: fs => f.Predictive m Φ tr sm F ∧ Format.EachPredictive m Φ tr sm F fs

/-- fields one after the other -/
def Format.FieldsPredictive (m : Module) (Φ : Nat → UInt8 → Prop) (tr sm : Bool) (F : UInt8 → Prop) : List Format → Prop
  | [] => True
  | f :: fs => (f.Predictive m Φ tr sm fun b => Announces m F (.tuple fs) b) ∧ Format.FieldsPredictive m Φ tr sm F fs

/-- each of the branches -/
def Format.BranchesPredictive (m : Module) (Φ : Nat → UInt8 → Prop) (tr sm : Bool) (F : UInt8 → Prop) :
    List (Pattern × Format) → Prop
  | [] => True
  | (_, f) :: fs => f.Predictive m Φ tr sm F ∧ Format.BranchesPredictive m Φ tr sm F fs
end

/-- so do the items of the module, followed by the bytes of the table -/
def Module.Predictive (m : Module) (Φ : Nat → UInt8 → Prop) (tr sm : Bool) : Prop :=
  ∀ (i : Nat) (it : Item), m.items[i]? = some it → it.format.Predictive m Φ tr sm (Φ i)

end Doodle
