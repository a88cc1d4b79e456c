import Verif.Model.Format

/-!
Model of the typed formats that code is generated from (/repo/src/codegen/typed_format.rs): the
syntax, the way back to untyped formats, and the static bounds, which are computed by functions of their own.

* The model is parametric in the type `τ` of annotations (`GenType` in the code).  A typed expression is
  represented by the expression it annotates; its types are part of the annotation of the format it occurs in.
  So two typed formats are equal in the model if they are equal in the code, and the other way round.
* `WithView` is split into its three `ViewFormat`s and `LiftedOption` into its two cases, as in `Format`.
* The body stored in `FormatCall` (`Rc<TypedFormat>`) is a subterm.
* The `Rc<TypedDynFormat>` in `Apply` and the `StyleHint` of `Hint` are part of the annotation.
-/

namespace Doodle

/-- `enum TypedFormat` (src/codegen/typed_format.rs:228-326). -/
inductive TFormat (τ : Type) where
  | formatCall (t : τ) (level : Nat) (args : List (String × Expr)) (views : List (String × ViewExpr)) (deref : TFormat τ)
  | forEach (t : τ) (e : Expr) (label : String) (f : TFormat τ)
  | fail
  | endOfInput
  | align (n : Nat)
  | byte (bs : ByteSet)
  | variant (t : τ) (label : String) (f : TFormat τ)
  | union (t : τ) (fs : List (TFormat τ))
  | unionNondet (t : τ) (fs : List (TFormat τ))
  | tuple (t : τ) (fs : List (TFormat τ))
  | sequence (t : τ) (fs : List (TFormat τ))
  | repeat_ (t : τ) (f : TFormat τ)
  | repeat1 (t : τ) (f : TFormat τ)
  | repeatCount (t : τ) (count : Expr) (f : TFormat τ)
  | repeatBetween (t : τ) (min max : Expr) (f : TFormat τ)
  | repeatUntilLast (t : τ) (cond : Expr) (f : TFormat τ)
  | repeatUntilSeq (t : τ) (cond : Expr) (f : TFormat τ)
  | maybe (t : τ) (cond : Expr) (f : TFormat τ)
  | peek (t : τ) (f : TFormat τ)
  | peekNot (t : τ) (f : TFormat τ)
  | slice (t : τ) (size : Expr) (f : TFormat τ)
  | bits (t : τ) (f : TFormat τ)
  | withRelativeOffset (t : τ) (base offset : Expr) (f : TFormat τ)
  | map (t : τ) (f : TFormat τ) (e : Expr)
  | where_ (t : τ) (f : TFormat τ) (e : Expr) (strict : Bool)
  | compute (t : τ) (e : Expr)
  | let_ (t : τ) (name : String) (e : Expr) (f : TFormat τ)
  | match_ (t : τ) (head : Expr) (branches : List (Pattern × TFormat τ))
  | dynamic (t : τ) (name : String) (lengths : Expr) (values : Option Expr) (f : TFormat τ)
  | apply (t : τ) (name : String)
  | pos (t : τ)
  | skipRemainder
  | decodeBytes (t : τ) (bytes : Expr) (f : TFormat τ)
  | parseFromView (t : τ) (v : ViewExpr) (f : TFormat τ)
  | letFormat (t : τ) (f : TFormat τ) (name : String) (g : TFormat τ)
  | monadSeq (t : τ) (f g : TFormat τ)
  | hint (t : τ) (f : TFormat τ)
  | accumUntil (t : τ) (done update init : Expr) (ty : ValueType) (f : TFormat τ)
  | liftedNone (t : τ)
  | liftedSome (t : τ) (f : TFormat τ)
  | letView (t : τ) (name : String) (f : TFormat τ)
  | captureBytes (t : τ) (v : ViewExpr) (len : Expr)
  | readArray (t : τ) (v : ViewExpr) (len : Expr) (kind : BaseKind)
  | reifyView (t : τ) (v : ViewExpr)
  | phantom (t : τ) (f : TFormat τ)
  | enforce (t : τ) (f : TFormat τ)
  | permit (t : τ) (f : TFormat τ) (fallback : Expr)

namespace TFormat
variable {τ : Type}

mutual
/-- `From<TypedFormat> for Format` (src/codegen/typed_format.rs:1149-1259). -/
def erase : TFormat τ → Format
  | .formatCall _ level args views _ => .itemVar level (args.map (·.2)) (views.map (·.2))
  | .forEach _ e label f => .forEach e label f.erase
  | .fail => .fail
  | .endOfInput => .endOfInput
  | .align n => .align n
  | .byte bs => .byte bs
  | .variant _ label f => .variant label f.erase
  | .union _ fs => .union (eraseList fs)
  | .unionNondet _ fs => .unionNondet (eraseList fs)
  | .tuple _ fs => .tuple (eraseList fs)
  | .sequence _ fs => .sequence (eraseList fs)
  | .repeat_ _ f => .repeat_ f.erase
  | .repeat1 _ f => .repeat1 f.erase
  | .repeatCount _ e f => .repeatCount e f.erase
  | .repeatBetween _ x y f => .repeatBetween x y f.erase
  | .repeatUntilLast _ e f => .repeatUntilLast e f.erase
  | .repeatUntilSeq _ e f => .repeatUntilSeq e f.erase
  | .maybe _ e f => .maybe e f.erase
  | .peek _ f => .peek f.erase
  | .peekNot _ f => .peekNot f.erase
  | .slice _ e f => .slice e f.erase
  | .bits _ f => .bits f.erase
  | .withRelativeOffset _ b o f => .withRelativeOffset b o f.erase
  | .map _ f e => .map f.erase e
  | .where_ _ f e strict => .where_ f.erase e strict
  | .compute _ e => .compute e
  | .let_ _ x e f => .let_ x e f.erase
  | .match_ _ head fs => .match_ head (eraseBranches fs)
  | .dynamic _ x l v f => .dynamic x l v f.erase
  | .apply _ x => .apply x
  | .pos _ => .pos
  | .skipRemainder => .skipRemainder
  | .decodeBytes _ e f => .decodeBytes e f.erase
  | .parseFromView _ v f => .parseFromView v f.erase
  | .letFormat _ f x g => .letFormat f.erase x g.erase
  | .monadSeq _ f g => .monadSeq f.erase g.erase
  | .hint _ f => .hint f.erase
  | .accumUntil _ d u i ty f => .accumUntil d u i ty f.erase
  | .liftedNone _ => .liftedNone
  | .liftedSome _ f => .liftedSome f.erase
  | .letView _ x f => .letView x f.erase
  | .captureBytes _ v e => .captureBytes v e
  | .readArray _ v e kind => .readArray v e kind
  | .reifyView _ v => .reifyView v
  | .phantom _ f => .phantom f.erase
  | .enforce _ f => .enforce f.erase
  | .permit _ f e => .permit f.erase e

/-- `revec` on formats (src/codegen/typed_format.rs:1074-1076). -/
def eraseList : List (TFormat τ) → List Format
  | [] => []
  | f :: fs => f.erase :: eraseList fs

/-- the branches of a match (src/codegen/typed_format.rs:1239-1245) -/
def eraseBranches : List (Pattern × TFormat τ) → List (Pattern × Format)
  | [] => []
  | (p, f) :: fs => (p, f.erase) :: eraseBranches fs
end

end TFormat

/-- `TypedExpr::bounds` (src/codegen/typed_format.rs:888-900), on the expression that the typed one annotates. -/
def Expr.typedBounds : Expr → Bounds
  | .lit _ n => .exact n.val
  | .arith .add x y => x.typedBounds.add y.typedBounds
  | .arith .mul x y => x.typedBounds.mul y.typedBounds
  | _ => .any

namespace TFormat
variable {τ : Type}

mutual
/-- `TypedFormat::match_bounds` (src/codegen/typed_format.rs:418-492); `n - 1` underflows for `n = 0` (debug build). -/
def matchBounds : TFormat τ → Panicky Bounds
  | .formatCall _ _ _ _ d => d.matchBounds
  | .decodeBytes _ _ _ => .ok (.exact 0)
  | .parseFromView _ _ _ => .ok (.exact 0)
  | .compute _ _ => .ok (.exact 0)
  | .peek _ _ => .ok (.exact 0)
  | .peekNot _ _ => .ok (.exact 0)
  | .endOfInput => .ok (.exact 0)
  | .pos _ => .ok (.exact 0)
  | .fail => .ok (.exact 0)
  | .align n => if n = 0 then .panic else .ok (.new 0 (n - 1))
  | .byte _ => .ok (.exact 1)
  | .variant _ _ f => f.matchBounds
  | .union _ fs => do
    let bs ← matchBoundsList fs
    Format.reduceUnion bs
  | .unionNondet _ fs => do
    let bs ← matchBoundsList fs
    Format.reduceUnion bs
  | .tuple _ fs => do
    let bs ← matchBoundsList fs
    .ok (Format.reduceAdd bs)
  | .sequence _ fs => do
    let bs ← matchBoundsList fs
    .ok (Format.reduceAdd bs)
  | .repeatCount _ e f => do
    let b ← f.matchBounds
    .ok (b.mul e.typedBounds)
  | .repeatBetween _ x y f => do
    let b ← f.matchBounds
    .ok (b.mul (x.typedBounds.union y.typedBounds))
  | .repeat1 _ f => do
    let b ← f.matchBounds
    .ok (b.mul (.atLeast 1))
  | .repeatUntilLast _ _ f => do
    let b ← f.matchBounds
    .ok (b.mul (.atLeast 1))
  | .repeat_ _ _ => .ok .any
  | .repeatUntilSeq _ _ _ => .ok .any
  | .accumUntil _ _ _ _ _ _ => .ok .any
  | .forEach _ _ _ _ => .ok .any
  | .maybe _ _ f => do
    let b ← f.matchBounds
    .ok ((Bounds.exact 0).union b)
  | .skipRemainder => .ok .any
  | .slice _ e _ => .ok e.typedBounds
  | .bits _ f => do
    let b ← f.matchBounds
    .ok b.bitsToBytes
  | .withRelativeOffset _ _ _ _ => .ok (.exact 0)
  | .map _ f _ => f.matchBounds
  | .where_ _ f _ _ => f.matchBounds
  | .dynamic _ _ _ _ f => f.matchBounds
  | .let_ _ _ _ f => f.matchBounds
  | .letView _ _ f => f.matchBounds
  | .match_ _ _ fs => do
    let bs ← matchBoundsBranches fs
    Format.reduceUnion bs
  | .apply _ _ => .ok (.atLeast 1)
  | .letFormat _ f _ g => do
    let b ← f.matchBounds
    let c ← g.matchBounds
    .ok (b.add c)
  | .monadSeq _ f g => do
    let b ← f.matchBounds
    let c ← g.matchBounds
    .ok (b.add c)
  | .enforce _ f => f.matchBounds
  | .permit _ f _ => f.matchBounds
  | .hint _ f => f.matchBounds
  | .liftedNone _ => .ok (.exact 0)
  | .liftedSome _ f => f.matchBounds
  | .captureBytes _ _ _ => .ok (.exact 0)
  | .readArray _ _ _ _ => .ok (.exact 0)
  | .reifyView _ _ => .ok (.exact 0)
  | .phantom _ _ => .ok (.exact 0)

/-- `iter().map(TypedFormat::match_bounds)` -/
def matchBoundsList : List (TFormat τ) → Panicky (List Bounds)
  | [] => .ok []
  | f :: fs => do
    let b ← f.matchBounds
    let bs ← matchBoundsList fs
    .ok (b :: bs)

/-- `iter().map(|(_, f)| f.match_bounds())` -/
def matchBoundsBranches : List (Pattern × TFormat τ) → Panicky (List Bounds)
  | [] => .ok []
  | (_, f) :: fs => do
    let b ← f.matchBounds
    let bs ← matchBoundsBranches fs
    .ok (b :: bs)
end

/-- `TypedFormat::is_nullable` (src/codegen/typed_format.rs:494-496). -/
def isNullable (f : TFormat τ) : Panicky Bool := do
  let b ← f.matchBounds
  .ok (b.min == 0)

mutual
/-- `TypedFormat::lookahead_bounds` (src/codegen/typed_format.rs:331-416). -/
def lookaheadBounds : TFormat τ → Panicky Bounds
  | .formatCall _ _ _ _ d => d.lookaheadBounds
  | .decodeBytes _ _ _ => .ok (.exact 0)
  | .skipRemainder => .ok (.exact 0)
  | .pos _ => .ok (.exact 0)
  | .compute _ _ => .ok (.exact 0)
  | .endOfInput => .ok (.exact 0)
  | .parseFromView _ _ _ => .ok (.exact 0)
  | .fail => .ok (.exact 0)
  | .peek _ f => f.lookaheadBounds
  | .peekNot _ f => f.lookaheadBounds
  | .align n => if n = 0 then .panic else .ok (.new 0 (n - 1))
  | .byte _ => .ok (.exact 1)
  | .variant _ _ f => f.lookaheadBounds
  | .union _ fs => do
    let bs ← lookaheadBoundsList fs
    Format.reduceUnion bs
  | .unionNondet _ fs => do
    let bs ← lookaheadBoundsList fs
    Format.reduceUnion bs
  | .tuple _ fs => do
    let bs ← lookaheadBoundsList fs
    .ok (Format.reduceAdd bs)
  | .sequence _ fs => do
    let bs ← lookaheadBoundsList fs
    .ok (Format.reduceAdd bs)
  | .repeatCount _ e f => do
    let b ← f.lookaheadBounds
    .ok (b.mul e.typedBounds)
  | .repeatBetween _ x y f => do
    let b ← f.lookaheadBounds
    .ok (b.mul (x.typedBounds.union y.typedBounds))
  | .repeat1 _ f => do
    let b ← f.lookaheadBounds
    .ok (b.mul (.atLeast 1))
  | .repeatUntilLast _ _ f => do
    let b ← f.lookaheadBounds
    .ok (b.mul (.atLeast 1))
  | .repeat_ _ _ => .ok .any
  | .repeatUntilSeq _ _ _ => .ok .any
  | .accumUntil _ _ _ _ _ _ => .ok .any
  | .forEach _ _ _ _ => .ok .any
  | .maybe _ _ f => do
    let b ← f.lookaheadBounds
    .ok ((Bounds.exact 0).union b)
  | .slice _ e _ => .ok e.typedBounds
  | .bits _ f => do
    let b ← f.lookaheadBounds
    .ok b.bitsToBytes
  | .withRelativeOffset _ _ _ _ => .ok .any
  | .map _ f _ => f.lookaheadBounds
  | .where_ _ f _ _ => f.lookaheadBounds
  | .dynamic _ _ _ _ f => f.lookaheadBounds
  | .let_ _ _ _ f => f.lookaheadBounds
  | .letView _ _ f => f.lookaheadBounds
  | .match_ _ _ fs => do
    let bs ← lookaheadBoundsBranches fs
    Format.reduceUnion bs
  | .apply _ _ => .ok (.atLeast 1)
  | .letFormat _ f _ g => do
    let lf ← f.lookaheadBounds
    let mf ← f.matchBounds
    let lg ← g.lookaheadBounds
    .ok (lf.union (mf.add lg))
  | .monadSeq _ f g => do
    let lf ← f.lookaheadBounds
    let mf ← f.matchBounds
    let lg ← g.lookaheadBounds
    .ok (lf.union (mf.add lg))
  | .enforce _ f => f.lookaheadBounds
  | .permit _ f _ => f.lookaheadBounds
  | .hint _ f => f.lookaheadBounds
  | .liftedNone _ => .ok (.exact 0)
  | .liftedSome _ f => f.lookaheadBounds
  | .captureBytes _ _ _ => .ok (.exact 0)
  | .readArray _ _ _ _ => .ok (.exact 0)
  | .reifyView _ _ => .ok (.exact 0)
  | .phantom _ _ => .ok (.exact 0)

/-- `iter().map(TypedFormat::lookahead_bounds)` -/
def lookaheadBoundsList : List (TFormat τ) → Panicky (List Bounds)
  | [] => .ok []
  | f :: fs => do
    let b ← f.lookaheadBounds
    let bs ← lookaheadBoundsList fs
    .ok (b :: bs)

/-- `iter().map(|(_, f)| f.lookahead_bounds())` -/
def lookaheadBoundsBranches : List (Pattern × TFormat τ) → Panicky (List Bounds)
  | [] => .ok []
  | (_, f) :: fs => do
    let b ← f.lookaheadBounds
    let bs ← lookaheadBoundsBranches fs
    .ok (b :: bs)
end

end TFormat
end Doodle
