import Verif.Model.Expr
import Verif.Model.ByteSet

/-!
Model of formats (/repo/src/format.rs) and format modules (/repo/src/lib.rs:907-1017).

`Dynamic` has `DynFormat::Huffman` (the only `DynFormat`) built in; `WithView` is split into its three
`ViewFormat`s; `LiftedOption` into its two cases; `Where` has the two fields of `Condition` (the
severity as "strict or not").  The `StyleHint` of `Hint` plays no part in
decoding and is left out.  `Enforce` is the constructor behind the feature `format_enforce`.
-/

namespace Doodle

open Num (BitWidth)

/-- `enum ViewExpr` (src/lib.rs:783-787). -/
inductive ViewExpr where
  | var (name : String)
  | offset (base : ViewExpr) (e : Expr)

/-- `BaseKind<Endian>` (src/marker.rs:37-56): width and whether it is big-endian (ignored for `U8`). -/
structure BaseKind where
  width : BitWidth
  be : Bool
deriving DecidableEq, Repr

/-- `enum Format` (src/format.rs:59-153). -/
inductive Format where
  | itemVar (level : Nat) (args : List Expr) (views : List ViewExpr)
  | fail
  | endOfInput
  | align (n : Nat)
  | byte (bs : ByteSet)
  | variant (label : String) (f : Format)
  | union (fs : List Format)
  | unionNondet (fs : List Format)
  | tuple (fs : List Format)
  | sequence (fs : List Format)
  | repeat_ (f : Format)
  | repeat1 (f : Format)
  | repeatCount (count : Expr) (f : Format)
  | repeatBetween (min max : Expr) (f : Format)
  | repeatUntilLast (cond : Expr) (f : Format)
  | repeatUntilSeq (cond : Expr) (f : Format)
  | accumUntil (done update init : Expr) (ty : ValueType) (f : Format)
  | forEach (e : Expr) (label : String) (f : Format)
  | maybe (cond : Expr) (f : Format)
  | peek (f : Format)
  | peekNot (f : Format)
  | slice (size : Expr) (f : Format)
  | bits (f : Format)
  | withRelativeOffset (base offset : Expr) (f : Format)
  | map (f : Format) (e : Expr)
  | where_ (f : Format) (e : Expr) (strict : Bool)
  | compute (e : Expr)
  | let_ (name : String) (e : Expr) (f : Format)
  | match_ (head : Expr) (branches : List (Pattern × Format))
  | dynamic (name : String) (lengths : Expr) (values : Option Expr) (f : Format)
  | apply (name : String)
  | pos
  | skipRemainder
  | decodeBytes (bytes : Expr) (f : Format)
  | letFormat (f : Format) (name : String) (g : Format)
  | monadSeq (f g : Format)
  | hint (f : Format)
  | liftedNone
  | liftedSome (f : Format)
  | letView (name : String) (f : Format)
  | captureBytes (v : ViewExpr) (len : Expr)
  | readArray (v : ViewExpr) (len : Expr) (kind : BaseKind)
  | reifyView (v : ViewExpr)
  | parseFromView (v : ViewExpr) (f : Format)
  | phantom (f : Format)
  | enforce (f : Format)
  | permit (f : Format) (fallback : Expr)

/-- One item of a `FormatModule`: its argument names, view names and format.  Names of items and
types are left out. -/
structure Item where
  args : List String
  views : List String
  format : Format

/-- `struct FormatModule` (src/lib.rs:907-914). -/
structure Module where
  items : List Item

namespace Module

/-- `self.formats[level]`, `self.args[level]`, `self.views[level]` (src/lib.rs:1002-1012); out of range
panics. -/
def get (m : Module) (level : Nat) : Panicky Item := Panicky.unwrap m.items[level]?

/-- `FormatModule::new` (src/lib.rs:917-925). -/
def empty : Module := ⟨[]⟩

end Module

namespace Format

/-- `Format::EMPTY` (src/format.rs:156): the empty tuple. -/
def EMPTY : Format := .tuple []

/-- `iter.reduce(Bounds::union).unwrap()`. -/
def reduceUnion : List Bounds → Panicky Bounds
  | [] => .panic
  | b :: bs => .ok (bs.foldl Bounds.union b)

/-- `iter.reduce(Bounds::add).unwrap_or(Bounds::exact(0))`. -/
def reduceAdd : List Bounds → Bounds
  | [] => .exact 0
  | b :: bs => bs.foldl Bounds.add b

mutual

/-- `Format::match_bounds` (src/format.rs:262-338); `item` is `match_bounds` of an item of the module. -/
def matchBoundsWith (item : Nat → Panicky Bounds) : Format → Panicky Bounds
  | .itemVar level _ _ => item level
  | .fail => .ok (.exact 0)
  | .endOfInput => .ok (.exact 0)
  | .skipRemainder => .ok .any
  | .align n => if n = 0 then .panic else .ok (.new 0 (n - 1))
  | .byte _ => .ok (.exact 1)
  | .variant _ f => matchBoundsWith item f
  | .union fs => do
    let bs ← matchBoundsList item fs
    reduceUnion bs
  | .unionNondet fs => do
    let bs ← matchBoundsList item fs
    reduceUnion bs
  | .tuple fs => do
    let bs ← matchBoundsList item fs
    .ok (reduceAdd bs)
  | .repeat_ _ => .ok .any
  | .repeat1 f => do
    let b ← matchBoundsWith item f
    .ok (b.mul (.atLeast 1))
  | .repeatCount e f => do
    let b ← matchBoundsWith item f
    let c ← e.bounds
    .ok (b.mul c)
  | .repeatBetween x y f => do
    let b ← matchBoundsWith item f
    let c ← x.bounds
    let d ← y.bounds
    .ok (b.mul (c.union d))
  | .repeatUntilLast _ f => do
    let b ← matchBoundsWith item f
    .ok (b.mul (.atLeast 1))
  | .repeatUntilSeq _ _ => .ok .any
  | .accumUntil _ _ _ _ _ => .ok .any
  | .maybe _ f => do
    let b ← matchBoundsWith item f
    .ok ((Bounds.exact 0).union b)
  | .peek _ => .ok (.exact 0)
  | .peekNot _ => .ok (.exact 0)
  | .slice e _ => e.bounds
  | .bits f => do
    let b ← matchBoundsWith item f
    .ok b.bitsToBytes
  | .withRelativeOffset _ _ _ => .ok (.exact 0)
  | .map f _ => matchBoundsWith item f
  | .where_ f _ _ => matchBoundsWith item f
  | .compute _ => .ok (.exact 0)
  | .pos => .ok (.exact 0)
  | .let_ _ _ f => matchBoundsWith item f
  | .letView _ f => matchBoundsWith item f
  | .match_ _ branches => do
    let bs ← matchBoundsBranches item branches
    reduceUnion bs
  | .dynamic _ _ _ f => matchBoundsWith item f
  | .apply _ => .ok (.atLeast 1)
  | .forEach _ _ _ => .ok .any
  | .decodeBytes _ _ => .ok (.exact 0)
  | .letFormat f _ g => do
    let b ← matchBoundsWith item f
    let c ← matchBoundsWith item g
    .ok (b.add c)
  | .monadSeq f g => do
    let b ← matchBoundsWith item f
    let c ← matchBoundsWith item g
    .ok (b.add c)
  | .permit f _ => matchBoundsWith item f
  | .hint f => matchBoundsWith item f
  | .enforce f => matchBoundsWith item f
  | .liftedNone => .ok (.exact 0)
  | .liftedSome f => matchBoundsWith item f
  | .sequence fs => do
    let bs ← matchBoundsList item fs
    .ok (bs.foldl Bounds.add (.exact 0))
  | .captureBytes _ _ => .ok (.exact 0)
  | .readArray _ _ _ => .ok (.exact 0)
  | .reifyView _ => .ok (.exact 0)
  | .parseFromView _ _ => .ok (.exact 0)
  | .phantom _ => .ok (.exact 0)

/-- `iter().map(|f| f.match_bounds(module))`. -/
def matchBoundsList (item : Nat → Panicky Bounds) : List Format → Panicky (List Bounds)
  | [] => .ok []
  | f :: fs => do
    let b ← matchBoundsWith item f
    let bs ← matchBoundsList item fs
    .ok (b :: bs)

/-- `iter().map(|(_, f)| f.match_bounds(module))`. -/
def matchBoundsBranches (item : Nat → Panicky Bounds) : List (Pattern × Format) → Panicky (List Bounds)
  | [] => .ok []
  | (_, f) :: fs => do
    let b ← matchBoundsWith item f
    let bs ← matchBoundsBranches item fs
    .ok (b :: bs)

end

/-- `module.get_format(level).match_bounds(module)`: the recursion through items, to a call depth of at
most `depth`.  In a module each item refers to earlier items only, so a depth of the number of items is
never exceeded; without that the real recursion overflows the stack, which is the `panic` here. -/
def itemMatchBounds (m : Module) : Nat → Nat → Panicky Bounds
  | 0, _ => .panic
  | depth + 1, level => do
    let i ← m.get level
    matchBoundsWith (itemMatchBounds m depth) i.format

/-- `Format::match_bounds` (src/format.rs:262-338). -/
def matchBounds (m : Module) (f : Format) : Panicky Bounds :=
  matchBoundsWith (itemMatchBounds m m.items.length) f

/-- `Format::is_nullable` (src/format.rs:428-430). -/
def isNullable (m : Module) (f : Format) : Panicky Bool := do
  let b ← matchBounds m f
  .ok (b.min == 0)

/-- The loop of the `Sequence` arm of `lookahead_bounds` (src/format.rs:403-412), on the pairs of match
and lookahead bounds of the elements. -/
def seqLookahead : Bounds → Bounds → List (Bounds × Bounds) → Bounds
  | _, acc, [] => acc
  | sum, acc, (mb, lb) :: rest => seqLookahead (sum.add mb) (acc.union (sum.add lb)) rest

mutual

/-- `Format::lookahead_bounds` (src/format.rs:342-425); `item` and `mitem` are `lookahead_bounds` and
`match_bounds` of an item of the module. -/
def lookaheadBoundsWith (mitem item : Nat → Panicky Bounds) : Format → Panicky Bounds
  | .itemVar level _ _ => item level
  | .fail => .ok (.exact 0)
  | .endOfInput => .ok (.exact 0)
  | .skipRemainder => .ok .any
  | .align n => if n = 0 then .panic else .ok (.new 0 (n - 1))
  | .byte _ => .ok (.exact 1)
  | .variant _ f => lookaheadBoundsWith mitem item f
  | .union fs => do
    let bs ← lookaheadBoundsList mitem item fs
    reduceUnion bs
  | .unionNondet fs => do
    let bs ← lookaheadBoundsList mitem item fs
    reduceUnion bs
  | .tuple fs => do
    let bs ← lookaheadBoundsList mitem item fs
    .ok (reduceAdd bs)
  | .repeat_ _ => .ok .any
  | .forEach _ _ _ => .ok .any
  | .repeat1 f => do
    let b ← lookaheadBoundsWith mitem item f
    .ok (b.mul (.atLeast 1))
  | .repeatCount e f => do
    let b ← lookaheadBoundsWith mitem item f
    let c ← e.bounds
    .ok (b.mul c)
  | .repeatBetween x y f => do
    let b ← lookaheadBoundsWith mitem item f
    let c ← x.bounds
    let d ← y.bounds
    .ok (b.mul (c.union d))
  | .repeatUntilLast _ f => do
    let b ← lookaheadBoundsWith mitem item f
    .ok (b.mul (.atLeast 1))
  | .repeatUntilSeq _ _ => .ok .any
  | .accumUntil _ _ _ _ _ => .ok .any
  | .maybe _ f => do
    let b ← lookaheadBoundsWith mitem item f
    .ok ((Bounds.exact 0).union b)
  | .peek f => lookaheadBoundsWith mitem item f
  | .peekNot f => lookaheadBoundsWith mitem item f
  | .slice e _ => e.bounds
  | .bits f => do
    let b ← lookaheadBoundsWith mitem item f
    .ok b.bitsToBytes
  | .withRelativeOffset _ _ _ => .ok .any
  | .map f _ => lookaheadBoundsWith mitem item f
  | .where_ f _ _ => lookaheadBoundsWith mitem item f
  | .compute _ => .ok (.exact 0)
  | .pos => .ok (.exact 0)
  | .let_ _ _ f => lookaheadBoundsWith mitem item f
  | .letView _ f => lookaheadBoundsWith mitem item f
  | .match_ _ branches => do
    let bs ← lookaheadBoundsBranches mitem item branches
    reduceUnion bs
  | .dynamic _ _ _ f => lookaheadBoundsWith mitem item f
  | .apply _ => .ok (.atLeast 1)
  | .decodeBytes _ _ => .ok (.exact 0)
  | .letFormat f _ g => do
    let lf ← lookaheadBoundsWith mitem item f
    let mf ← matchBoundsWith mitem f
    let lg ← lookaheadBoundsWith mitem item g
    .ok (lf.union (mf.add lg))
  | .monadSeq f g => do
    let lf ← lookaheadBoundsWith mitem item f
    let mf ← matchBoundsWith mitem f
    let lg ← lookaheadBoundsWith mitem item g
    .ok (lf.union (mf.add lg))
  | .permit f _ => lookaheadBoundsWith mitem item f
  | .enforce f => lookaheadBoundsWith mitem item f
  | .hint f => lookaheadBoundsWith mitem item f
  | .liftedNone => .ok (.exact 0)
  | .liftedSome f => lookaheadBoundsWith mitem item f
  | .sequence fs => do
    let ls ← lookaheadBoundsList mitem item fs
    let ms ← matchBoundsList mitem fs
    .ok (seqLookahead (.exact 0) (.exact 0) (ms.zip ls))
  | .captureBytes _ _ => .ok (.exact 0)
  | .readArray _ _ _ => .ok (.exact 0)
  | .reifyView _ => .ok (.exact 0)
  | .parseFromView _ _ => .ok (.exact 0)
  | .phantom _ => .ok (.exact 0)

/-- `iter().map(|f| f.lookahead_bounds(module))`. -/
def lookaheadBoundsList (mitem item : Nat → Panicky Bounds) : List Format → Panicky (List Bounds)
  | [] => .ok []
  | f :: fs => do
    let b ← lookaheadBoundsWith mitem item f
    let bs ← lookaheadBoundsList mitem item fs
    .ok (b :: bs)

/-- `iter().map(|(_, f)| f.lookahead_bounds(module))`. -/
def lookaheadBoundsBranches (mitem item : Nat → Panicky Bounds) :
    List (Pattern × Format) → Panicky (List Bounds)
  | [] => .ok []
  | (_, f) :: fs => do
    let b ← lookaheadBoundsWith mitem item f
    let bs ← lookaheadBoundsBranches mitem item fs
    .ok (b :: bs)

end

/-- `module.get_format(level).lookahead_bounds(module)`, cf. `itemMatchBounds`. -/
def itemLookaheadBounds (m : Module) : Nat → Nat → Panicky Bounds
  | 0, _ => .panic
  | depth + 1, level => do
    let i ← m.get level
    lookaheadBoundsWith (itemMatchBounds m m.items.length) (itemLookaheadBounds m depth) i.format

/-- `Format::lookahead_bounds` (src/format.rs:342-425). -/
def lookaheadBounds (m : Module) (f : Format) : Panicky Bounds :=
  lookaheadBoundsWith (itemMatchBounds m m.items.length) (itemLookaheadBounds m m.items.length) f

end Format
end Doodle
