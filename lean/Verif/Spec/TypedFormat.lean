import Verif.Spec.Regular
import Verif.Model.TypedFormat

/-!
Specification for C59: the typed formats for which the compiler of code generation and the compiler of the
interpreter are compared.
-/

namespace Doodle

/-- a byte set that is not empty -/
def ByteSet.Inhabited (bs : ByteSet) : Prop := ∃ b, bs.contains b = true

/-- no `Byte` with an empty set, at one format -/
def Format.BytesHere : Format → Prop
  | .byte bs => bs.Inhabited
  | _ => True

/-- No format of the module has a `Byte` with an empty set. -/
def Module.BytesOk (m : Module) : Prop := ∀ it ∈ m.items, it.format.Each Format.BytesHere

/-- The bounds that code generation and interpreter find for the expression have the same least value, and the same
only value if there is just one. -/
def Expr.SameBounds (e : Expr) : Prop :=
  ∃ b, e.bounds = .ok b ∧ b.asExact = e.typedBounds.asExact ∧ b.min = e.typedBounds.min

/-- A number made of literals and data by adding and multiplying: no cast, no other operator. -/
inductive Expr.Count : Expr → Prop
  | lit {w n} : Expr.Count (.lit w n)
  | var {x} : Expr.Count (.var x)
  | tupleProj {e i} : Expr.Count (.tupleProj e i)
  | recordProj {e l} : Expr.Count (.recordProj e l)
  | seqLength {e} : Expr.Count (.seqLength e)
  | match_ {e bs} : Expr.Count (.match_ e bs)
  | fromBytes {w be e} : Expr.Count (.fromBytes w be e)
  | add {x y} : x.Count → y.Count → Expr.Count (.arith .add x y)
  | mul {x y} : x.Count → y.Count → Expr.Count (.arith .mul x y)

/-- No choice in the format depends on what follows the format: there is none, or it is in a place that is decoded
on its own. -/
inductive Format.NextFree (m : Module) : Format → Prop
  | itemVar {level args views it} : m.items[level]? = some it → Format.NextFree m it.format →
      Format.NextFree m (.itemVar level args views)
  | forEach {e l f} : Format.NextFree m f → Format.NextFree m (.forEach e l f)
  | variant {l f} : Format.NextFree m f → Format.NextFree m (.variant l f)
  | unionNondet {fs} : (∀ f ∈ fs, Format.NextFree m f) → Format.NextFree m (.unionNondet fs)
  | tuple {fs} : (∀ f ∈ fs, Format.NextFree m f) → Format.NextFree m (.tuple fs)
  | sequence {fs} : (∀ f ∈ fs, Format.NextFree m f) → Format.NextFree m (.sequence fs)
  | match_ {e fs} : (∀ p ∈ fs, Format.NextFree m p.2) → Format.NextFree m (.match_ e fs)
  | repeatCount {e f} : Format.NextFree m f → Format.NextFree m (.repeatCount e f)
  | repeatUntilLast {e f} : Format.NextFree m f → Format.NextFree m (.repeatUntilLast e f)
  | repeatUntilSeq {e f} : Format.NextFree m f → Format.NextFree m (.repeatUntilSeq e f)
  | accumUntil {d u i ty f} : Format.NextFree m f → Format.NextFree m (.accumUntil d u i ty f)
  | maybe {e f} : Format.NextFree m f → Format.NextFree m (.maybe e f)
  | map {f e} : Format.NextFree m f → Format.NextFree m (.map f e)
  | where_ {f e b} : Format.NextFree m f → Format.NextFree m (.where_ f e b)
  | let_ {x e f} : Format.NextFree m f → Format.NextFree m (.let_ x e f)
  | dynamic {x l v f} : Format.NextFree m f → Format.NextFree m (.dynamic x l v f)
  | letFormat {f x g} : Format.NextFree m f → Format.NextFree m g → Format.NextFree m (.letFormat f x g)
  | monadSeq {f g} : Format.NextFree m f → Format.NextFree m g → Format.NextFree m (.monadSeq f g)
  | hint {f} : Format.NextFree m f → Format.NextFree m (.hint f)
  | liftedSome {f} : Format.NextFree m f → Format.NextFree m (.liftedSome f)
  | letView {x f} : Format.NextFree m f → Format.NextFree m (.letView x f)
  | enforce {f} : Format.NextFree m f → Format.NextFree m (.enforce f)
  | permit {f e} : Format.NextFree m f → Format.NextFree m (.permit f e)
  -- decoded on their own
  | peek {f} : Format.NextFree m (.peek f)
  | peekNot {f} : Format.NextFree m (.peekNot f)
  | slice {e f} : Format.NextFree m (.slice e f)
  | bits {f} : Format.NextFree m (.bits f)
  | withRelativeOffset {b o f} : Format.NextFree m (.withRelativeOffset b o f)
  | decodeBytes {e f} : Format.NextFree m (.decodeBytes e f)
  | parseFromView {v f} : Format.NextFree m (.parseFromView v f)
  | phantom {f} : Format.NextFree m (.phantom f)
  -- without formats inside
  | fail : Format.NextFree m .fail
  | endOfInput : Format.NextFree m .endOfInput
  | align {n} : Format.NextFree m (.align n)
  | byte {bs} : Format.NextFree m (.byte bs)
  | compute {e} : Format.NextFree m (.compute e)
  | apply {x} : Format.NextFree m (.apply x)
  | pos : Format.NextFree m .pos
  | skipRemainder : Format.NextFree m .skipRemainder
  | liftedNone : Format.NextFree m .liftedNone
  | captureBytes {v e} : Format.NextFree m (.captureBytes v e)
  | readArray {v e k} : Format.NextFree m (.readArray v e k)
  | reifyView {v} : Format.NextFree m (.reifyView v)

namespace TFormat
variable {τ : Type}

/-- a variant of a variant … of `Fail` -/
def IsFail : TFormat τ → Prop
  | .fail => True
  | .variant _ _ f => f.IsFail
  | _ => False

mutual
/-- The typed format fits the module: a call carries the typed format of the item it calls, with the item's
parameters.  And it has none of the shapes for which the two compilers differ (`C59_…_refuted`): static bounds are
found alike, alignments are real, no byte set is empty, what is optional has no choice that depends on what follows.
A variant that always fails is left out too: code generation makes it a plain failure. -/
def Fit (m : Module) : TFormat τ → Prop
  | .formatCall _ level args views d => ∃ it, m.items[level]? = some it ∧ d.erase = it.format ∧
      args.map (·.1) = it.args ∧ views.map (·.1) = it.views ∧ d.Fit m
  | .forEach _ _ _ f => f.Fit m ∧ ∃ b c, f.erase.matchBounds m = .ok b ∧ f.matchBounds = .ok c ∧
      (b.min = 0 ↔ c.min = 0) ∧ (b.max = some 0 ↔ c.max = some 0)
  | .align n => 2 ≤ n
  | .byte bs => bs.Inhabited
  | .repeatCount _ e f => e.SameBounds ∧ f.Fit m
  | .repeatBetween _ x y f => x.SameBounds ∧ y.SameBounds ∧ f.Fit m
  | .slice _ e f => e.SameBounds ∧ f.Fit m
  | .maybe _ _ f => f.erase.NextFree m ∧ f.Fit m
  | .variant _ _ f => ¬ f.IsFail ∧ f.Fit m
  | .union _ fs => FitList m fs
  | .unionNondet _ fs => FitList m fs
  | .tuple _ fs => FitList m fs
  | .sequence _ fs => FitList m fs
  | .repeat_ _ f => f.Fit m
  | .repeat1 _ f => f.Fit m
  | .repeatUntilLast _ _ f => f.Fit m
  | .repeatUntilSeq _ _ f => f.Fit m
  | .accumUntil _ _ _ _ _ f => f.Fit m
  | .peek _ f => f.Fit m
  | .peekNot _ f => f.Fit m
  | .bits _ f => f.Fit m
  | .withRelativeOffset _ _ _ f => f.Fit m
  | .map _ f _ => f.Fit m
  | .where_ _ f _ _ => f.Fit m
  | .let_ _ _ _ f => f.Fit m
  | .match_ _ _ fs => FitBranches m fs
  | .dynamic _ _ _ _ f => f.Fit m
  | .decodeBytes _ _ f => f.Fit m
  | .parseFromView _ _ f => f.Fit m
  | .letFormat _ f _ g => f.Fit m ∧ g.Fit m
  | .monadSeq _ f g => f.Fit m ∧ g.Fit m
  | .hint _ f => f.Fit m
  | .liftedSome _ f => f.Fit m
  | .letView _ _ f => f.Fit m
  | .phantom _ f => f.Fit m
  | .enforce _ f => f.Fit m
  | .permit _ f _ => f.Fit m
  | _ => True

def FitList (m : Module) : List (TFormat τ) → Prop
  | [] => True
  | f :: fs => f.Fit m ∧ FitList m fs

def FitBranches (m : Module) : List (Pattern × TFormat τ) → Prop
  | [] => True
  | (_, f) :: fs => f.Fit m ∧ FitBranches m fs
end

mutual
/-- The code generator's bounds on what a format matches and looks at are computed as the interpreter's are: there is
no sequence and nothing that skips the rest of the input, and sizes and counts have the same bounds. -/
def Alike : TFormat τ → Prop
  | .sequence _ _ => False
  | .skipRemainder => False
  | .repeatCount _ e f => e.bounds = .ok e.typedBounds ∧ f.Alike
  | .repeatBetween _ x y f => x.bounds = .ok x.typedBounds ∧ y.bounds = .ok y.typedBounds ∧ f.Alike
  | .slice _ e _ => e.bounds = .ok e.typedBounds
  | .formatCall _ _ _ _ d => d.Alike
  | .variant _ _ f => f.Alike
  | .union _ fs => AlikeList fs
  | .unionNondet _ fs => AlikeList fs
  | .tuple _ fs => AlikeList fs
  | .repeat1 _ f => f.Alike
  | .repeatUntilLast _ _ f => f.Alike
  | .maybe _ _ f => f.Alike
  | .peek _ f => f.Alike
  | .peekNot _ f => f.Alike
  | .bits _ f => f.Alike
  | .map _ f _ => f.Alike
  | .where_ _ f _ _ => f.Alike
  | .let_ _ _ _ f => f.Alike
  | .match_ _ _ fs => AlikeBranches fs
  | .dynamic _ _ _ _ f => f.Alike
  | .letFormat _ f _ g => f.Alike ∧ g.Alike
  | .monadSeq _ f g => f.Alike ∧ g.Alike
  | .hint _ f => f.Alike
  | .liftedSome _ f => f.Alike
  | .letView _ _ f => f.Alike
  | .enforce _ f => f.Alike
  | .permit _ f _ => f.Alike
  | _ => True

def AlikeList : List (TFormat τ) → Prop
  | [] => True
  | f :: fs => f.Alike ∧ AlikeList fs

def AlikeBranches : List (Pattern × TFormat τ) → Prop
  | [] => True
  | (_, f) :: fs => f.Alike ∧ AlikeBranches fs
end

mutual
/-- Nothing that only code generation refuses: no phantom format, the type of a position is a number type, and what a
negative lookahead looks for has bounds that are computed alike. -/
def Usual (numeric : τ → Bool) : TFormat τ → Prop
  | .phantom _ _ => False
  | .pos t => numeric t = true
  | .peekNot _ f => f.Alike ∧ f.Usual numeric
  | .formatCall _ _ _ _ d => d.Usual numeric
  | .forEach _ _ _ f => f.Usual numeric
  | .variant _ _ f => f.Usual numeric
  | .union _ fs => UsualList numeric fs
  | .unionNondet _ fs => UsualList numeric fs
  | .tuple _ fs => UsualList numeric fs
  | .sequence _ fs => UsualList numeric fs
  | .repeat_ _ f => f.Usual numeric
  | .repeat1 _ f => f.Usual numeric
  | .repeatCount _ _ f => f.Usual numeric
  | .repeatBetween _ _ _ f => f.Usual numeric
  | .repeatUntilLast _ _ f => f.Usual numeric
  | .repeatUntilSeq _ _ f => f.Usual numeric
  | .accumUntil _ _ _ _ _ f => f.Usual numeric
  | .maybe _ _ f => f.Usual numeric
  | .peek _ f => f.Usual numeric
  | .slice _ _ f => f.Usual numeric
  | .bits _ f => f.Usual numeric
  | .withRelativeOffset _ _ _ f => f.Usual numeric
  | .map _ f _ => f.Usual numeric
  | .where_ _ f _ _ => f.Usual numeric
  | .let_ _ _ _ f => f.Usual numeric
  | .match_ _ _ fs => UsualBranches numeric fs
  | .dynamic _ _ _ _ f => f.Usual numeric
  | .decodeBytes _ _ f => f.Usual numeric
  | .parseFromView _ _ f => f.Usual numeric
  | .letFormat _ f _ g => f.Usual numeric ∧ g.Usual numeric
  | .monadSeq _ f g => f.Usual numeric ∧ g.Usual numeric
  | .hint _ f => f.Usual numeric
  | .liftedSome _ f => f.Usual numeric
  | .letView _ _ f => f.Usual numeric
  | .enforce _ f => f.Usual numeric
  | .permit _ f _ => f.Usual numeric
  | _ => True

def UsualList (numeric : τ → Bool) : List (TFormat τ) → Prop
  | [] => True
  | f :: fs => f.Usual numeric ∧ UsualList numeric fs

def UsualBranches (numeric : τ → Bool) : List (Pattern × TFormat τ) → Prop
  | [] => True
  | (_, f) :: fs => f.Usual numeric ∧ UsualBranches numeric fs
end

end TFormat
end Doodle
