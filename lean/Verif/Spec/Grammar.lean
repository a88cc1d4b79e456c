import Verif.Model.Decoder

/-!
Specification: what it means for a format to describe a piece of input, independently of how it is
compiled and decoded (no prefix trees, no lookahead, no order of evaluation).  It follows the comments on
the constructors of `Format` (/repo/src/format.rs:59-153) and /repo/README.md.

`Parses m rej f s c v c' k`: in scope `s`, the format `f` describes the input of the window `c` from its
position up to the position of `c'`, as the value `v`, with `k` tolerated deviations (a lenient `Where`
that does not hold, a `Permit` that fell back, bytes left over by `DecodeBytes`).

`rej f s c` stands for "`f` is rejected at `c`"; negative conditions (`PeekNot`, the order of
`UnionNondet`, the fallback of `Permit`) are expressed by it, so that the definition is inductive.
-/

namespace Doodle
namespace Grammar

open Num (BitWidth)

variable {δ : Type}

/-- `e` denotes the value `v` -/
def Denotes (e : Expr) (s : Scope δ) (v : Value) : Prop := e.evalValue s = .ok v

/-- `e` denotes the natural number `n` -/
def DenotesNat (e : Expr) (s : Scope δ) (n : Nat) : Prop := ∃ v, Denotes e s v ∧ v.unwrapUsize = .ok n

/-- `e` denotes the truth value `b` -/
def DenotesBool (e : Expr) (s : Scope δ) (b : Bool) : Prop := Denotes e s (.bool b)

/-- the function `e` maps `x` to `v` -/
def Sends (e : Expr) (s : Scope δ) (x v : Value) : Prop := e.evalLambda s x = .ok v

/-- `e` denotes a sequence of these items -/
def DenotesItems (e : Expr) (s : Scope δ) (vs : List Value) : Prop :=
  ∃ v q, Denotes e s v ∧ v.getSequence = some q ∧ q.items = vs

/-- the values are these bytes -/
inductive AreBytes : List Value → List UInt8 → Prop
  | nil : AreBytes [] []
  | cons {v b vs bs} : v.getAsU8 = .ok b → AreBytes vs bs → AreBytes (v :: vs) (b :: bs)

/-- `v` denotes the window `c`: a bound view, possibly advanced within its window -/
inductive ViewAt (s : Scope δ) : ViewExpr → ReadCtxt → Prop
  | var {name c} : s.getView name = some c → ViewAt s (.var name) c
  | offset {base e c n} : ViewAt s base c → DenotesNat e s n → c.offset + n ≤ c.input.length →
      ViewAt s (.offset base e) ⟨c.input, c.offset + n⟩

/-- the named arguments of a call, evaluated -/
inductive ArgsAre (s : Scope δ) : List (String × Expr) → List (String × ViewOrValue) → Prop
  | nil : ArgsAre s [] []
  | cons {x e v as bs} : Denotes e s v → ArgsAre s as bs → ArgsAre s ((x, e) :: as) ((x, .value v) :: bs)

/-- the named view arguments of a call, evaluated -/
inductive ViewsAre (s : Scope δ) : List (String × ViewExpr) → List (String × ViewOrValue) → Prop
  | nil : ViewsAre s [] []
  | cons {x e c as bs} : ViewAt s e c → ViewsAre s as bs → ViewsAre s ((x, e) :: as) ((x, .view c) :: bs)

/-- `AccumTo done update s acc seen vs r`: folding `update` over `vs`, starting from `acc` with the items
`seen` behind, passes only states where `done` is false and ends in `r` where it is true. -/
inductive AccumTo (done update : Expr) (s : Scope δ) : Value → List Value → List Value → Value → Prop
  | stop {acc seen} : Sends done s (.tuple [acc, .seq (.strict seen)]) (.bool true) →
      AccumTo done update s acc seen [] acc
  | step {acc acc' seen v vs r} : Sends done s (.tuple [acc, .seq (.strict seen)]) (.bool false) →
      Sends update s (.tuple [acc, v]) acc' → AccumTo done update s acc' (seen ++ [v]) vs r →
      AccumTo done update s acc seen (v :: vs) r

/-- The bits of a byte string, one per list element, least significant bit of each byte first. -/
def bitStream (bytes : List UInt8) : List UInt8 :=
  (List.range (8 * bytes.length)).map fun j =>
    match bytes[j / 8]? with
    | some b => if b.toNat.testBit (j % 8) then 1 else 0
    | none => 0

/-- the `i`-th big-endian element of the given width (in bytes `sz`) from position `offset` on -/
def arrayItem (c : ReadCtxt) (w : BitWidth) (i : Nat) : Value :=
  .num (.fixed w) (Fin.ofNat _ (fromBeBytes ((c.input.drop (c.offset + i * (w.bits / 8))).take (w.bits / 8))))

mutual

/-- the meaning of a format, see the head of this file -/
inductive Parses (m : Module) (rej : Format → Scope Format → ReadCtxt → Prop) :
    Format → Scope Format → ReadCtxt → Value → ReadCtxt → Nat → Prop
  /-- a call: the item's format, in a scope holding just its arguments -/
  | itemVar {level args views it es vs s c v c' k} : m.items[level]? = some it →
      ArgsAre s (it.args.zip args) es → ViewsAre s (it.views.zip views) vs →
      Parses m rej it.format (.multi (es ++ vs) .empty) c v c' k →
      Parses m rej (.itemVar level args views) s c v c' k
  | endOfInput {s c} : c.input.length ≤ c.offset → Parses m rej .endOfInput s c .unit c 0
  /-- skip to the next multiple of `n` -/
  | align {n s c o} : 0 < n → c.offset ≤ o → o < c.offset + n → o % n = 0 → o ≤ c.input.length →
      Parses m rej (.align n) s c .unit ⟨c.input, o⟩ 0
  | byte {bs s c b} : c.input[c.offset]? = some b → bs.contains b = true →
      Parses m rej (.byte bs) s c (.u8 b) ⟨c.input, c.offset + 1⟩ 0
  | variant {l f s c v c' k} : Parses m rej f s c v c' k → Parses m rej (.variant l f) s c (.variant l v) c' k
  | union {fs i f s c v c' k} : fs[i]? = some f → Parses m rej f s c v c' k →
      Parses m rej (.union fs) s c (.branch i v) c' k
  /-- ordered choice: earlier alternatives are rejected -/
  | unionNondet {fs i f s c v c' k} : fs[i]? = some f → (∀ j < i, ∀ g, fs[j]? = some g → rej g s c) →
      Parses m rej f s c v c' k → Parses m rej (.unionNondet fs) s c (.branch i v) c' k
  | tuple {fs s c vs c' k} : ParsesFields m rej fs s c vs c' k →
      Parses m rej (.tuple fs) s c (.tuple vs) c' k
  | sequence {fs s c vs c' k} : ParsesFields m rej fs s c vs c' k →
      Parses m rej (.sequence fs) s c (.seq (.strict vs)) c' k
  | repeat_ {f s c vs c' k} : ParsesMany m rej f s c vs c' k →
      Parses m rej (.repeat_ f) s c (.seq (.strict vs)) c' k
  | repeat1 {f s c vs c' k} : ParsesMany m rej f s c vs c' k → vs ≠ [] →
      Parses m rej (.repeat1 f) s c (.seq (.strict vs)) c' k
  | repeatCount {e f n s c vs c' k} : DenotesNat e s n → ParsesMany m rej f s c vs c' k → vs.length = n →
      Parses m rej (.repeatCount e f) s c (.seq (.strict vs)) c' k
  | repeatBetween {x y f lo hi s c vs c' k} : DenotesNat x s lo → DenotesNat y s hi →
      ParsesMany m rej f s c vs c' k → lo ≤ vs.length → vs.length ≤ hi →
      Parses m rej (.repeatBetween x y f) s c (.seq (.strict vs)) c' k
  /-- up to and including the first item satisfying `e` -/
  | repeatUntilLast {e f s c init last c' k} : ParsesMany m rej f s c (init ++ [last]) c' k →
      Sends e s last (.bool true) → (∀ v ∈ init, Sends e s v (.bool false)) →
      Parses m rej (.repeatUntilLast e f) s c (.seq (.strict (init ++ [last]))) c' k
  /-- until the items so far satisfy `e` for the first time, at least one item -/
  | repeatUntilSeq {e f s c vs c' k} : ParsesMany m rej f s c vs c' k → vs ≠ [] →
      Sends e s (.seq (.strict vs)) (.bool true) →
      (∀ n, 0 < n → n < vs.length → Sends e s (.seq (.strict (vs.take n))) (.bool false)) →
      Parses m rej (.repeatUntilSeq e f) s c (.seq (.strict vs)) c' k
  | accumUntil {done update init ty f s c a vs r c' k} : Denotes init s a →
      ParsesMany m rej f s c vs c' k → AccumTo done update s a [] vs r →
      Parses m rej (.accumUntil done update init ty f) s c (.tuple [r, .seq (.strict vs)]) c' k
  /-- once for every item of `e`, with the label bound to it -/
  | forEach {e l f s c items vs c' k} : DenotesItems e s items → ParsesEach m rej l f s items c vs c' k →
      Parses m rej (.forEach e l f) s c (.seq (.strict vs)) c' k
  | maybe_some {e f s c v c' k} : DenotesBool e s true → Parses m rej f s c v c' k →
      Parses m rej (.maybe e f) s c (.optSome v) c' k
  | maybe_none {e f s c} : DenotesBool e s false → Parses m rej (.maybe e f) s c .optNone c 0
  | peek {f s c v c' k} : Parses m rej f s c v c' k → Parses m rej (.peek f) s c v c k
  | peekNot {f s c} : rej f s c → Parses m rej (.peekNot f) s c (.tuple []) c 0
  /-- exactly the next `n` bytes are visible inside and consumed outside -/
  | slice {e f n s c v c' k} : DenotesNat e s n → c.offset + n ≤ c.input.length →
      Parses m rej f s ⟨c.input.take (c.offset + n), c.offset⟩ v c' k →
      Parses m rej (.slice e f) s c v ⟨c.input, c.offset + n⟩ k
  /-- the rest of the input as a stream of bits; a partially used byte is used up -/
  | bits {f s c v c' k} : c.offset ≤ c.input.length →
      Parses m rej f s ⟨bitStream (c.input.drop c.offset), 0⟩ v c' k →
      Parses m rej (.bits f) s c v ⟨c.input, c.offset + (c'.offset + 7) / 8⟩ k
  /-- elsewhere in the same window, without moving -/
  | withRelativeOffset {base off f b o s c v c' k} : DenotesNat base s b → DenotesNat off s o →
      b + o ≤ c.input.length → Parses m rej f s ⟨c.input, b + o⟩ v c' k →
      Parses m rej (.withRelativeOffset base off f) s c v c k
  | map {f e s c v w c' k} : Parses m rej f s c v c' k → Sends e s v w →
      Parses m rej (.map f e) s c (.mapped v w) c' k
  | where_ {f e strict s c v c' k} : Parses m rej f s c v c' k → Sends e s v (.bool true) →
      Parses m rej (.where_ f e strict) s c v c' k
  | where_lenient {f e s c v c' k} : Parses m rej f s c v c' k → Sends e s v (.bool false) →
      Parses m rej (.where_ f e false) s c v c' (k + 1)
  | compute {e s c v} : Denotes e s v → Parses m rej (.compute e) s c v c 0
  | let_ {x e f s c w v c' k} : Denotes e s w → Parses m rej f (.single x w s) c v c' k →
      Parses m rej (.let_ x e f) s c v c' k
  /-- the first branch whose pattern matches -/
  | match_ {head branches i p f s c h bs v c' k} : head.eval s = .ok h → branches[i]? = some (p, f) →
      h.matchesPat p = some bs → (∀ j < i, ∀ q g, branches[j]? = some (q, g) → h.matchesPat q = none) →
      Parses m rej f (s.withBindings bs) c v c' k →
      Parses m rej (.match_ head branches) s c (.branch i v) c' k
  /-- the Huffman code with the given code lengths becomes a named format -/
  | dynamic {x ls vs f g s c lv v c' k} : Decoder.evalHuffman s ls vs = .ok lv →
      Decoder.huffmanFormat lv.1 lv.2 = .ok g → Parses m rej f (.decoder x g s) c v c' k →
      Parses m rej (.dynamic x ls vs f) s c v c' k
  | apply {x g s c v c' k} : s.getDecoder x = some g → Parses m rej g s c v c' k →
      Parses m rej (.apply x) s c v c' k
  | pos {s c} : Parses m rej .pos s c (.num (.fixed .b64) (Fin.ofNat _ c.offset)) c 0
  | skipRemainder {s c} : Parses m rej .skipRemainder s c .unit ⟨c.input, c.input.length⟩ 0
  /-- the bytes a sequence denotes, all of them -/
  | decodeBytes {e f s c items bytes v c' k} : DenotesItems e s items → AreBytes items bytes →
      Parses m rej f s ⟨bytes, 0⟩ v c' k → bytes.length ≤ c'.offset →
      Parses m rej (.decodeBytes e f) s c v c k
  /-- ... or, as a tolerated deviation, not all of them -/
  | decodeBytes_trailing {e f s c items bytes v c' k} : DenotesItems e s items → AreBytes items bytes →
      Parses m rej f s ⟨bytes, 0⟩ v c' k → c'.offset < bytes.length →
      Parses m rej (.decodeBytes e f) s c v c (k + 1)
  | letFormat {f x g s c v c' w c'' k k'} : Parses m rej f s c v c' k →
      Parses m rej g (.single x v s) c' w c'' k' → Parses m rej (.letFormat f x g) s c w c'' (k + k')
  | monadSeq {f g s c v c' w c'' k k'} : Parses m rej f s c v c' k → Parses m rej g s c' w c'' k' →
      Parses m rej (.monadSeq f g) s c w c'' (k + k')
  | hint {f s c v c' k} : Parses m rej f s c v c' k → Parses m rej (.hint f) s c v c' k
  | liftedNone {s c} : Parses m rej .liftedNone s c .optNone c 0
  | liftedSome {f s c v c' k} : Parses m rej f s c v c' k → Parses m rej (.liftedSome f) s c (.optSome v) c' k
  | letView {x f s c v c' k} : Parses m rej f (.view x c s) c v c' k → Parses m rej (.letView x f) s c v c' k
  | captureBytes {e len s c w n} : ViewAt s e w → DenotesNat len s n → (∀ i < n, w.offset + i < w.input.length) →
      Parses m rej (.captureBytes e len) s c
        (.seq (.strict (((w.input.drop w.offset).take n).map Value.u8))) c 0
  | readArray {e len kind s c w n} : ViewAt s e w → DenotesNat len s n →
      (∀ i < n, w.offset + (i + 1) * (kind.width.bits / 8) ≤ w.input.length) →
      (n ≠ 0 → kind.width = .b8 ∨ kind.be = true) →
      Parses m rej (.readArray e len kind) s c
        (.seq (.strict ((List.range n).map (arrayItem w kind.width)))) c 0
  | reifyView {e s c w} : ViewAt s e w → Parses m rej (.reifyView e) s c (.view w.offset) c 0
  | parseFromView {e f s c w v c' k} : ViewAt s e w → Parses m rej f s w v c' k →
      Parses m rej (.parseFromView e f) s c v c k
  | phantom {f s c} : Parses m rej (.phantom f) s c .phantom c 0
  /-- no deviation is tolerated inside -/
  | enforce {f s c v c'} : Parses m rej f s c v c' 0 → Parses m rej (.enforce f) s c v c' 0
  | permit {f e s c v c' k} : Parses m rej f s c v c' k → Parses m rej (.permit f e) s c (.permitOk v) c' k
  | permit_fallback {f e s c v} : rej f s c → Denotes e s v →
      Parses m rej (.permit f e) s c (.permitErr v) c 1

/-- formats one after the other, in one scope -/
inductive ParsesFields (m : Module) (rej : Format → Scope Format → ReadCtxt → Prop) :
    List Format → Scope Format → ReadCtxt → List Value → ReadCtxt → Nat → Prop
  | fnil {s c} : ParsesFields m rej [] s c [] c 0
  | fcons {f fs s c v c' vs c'' k k'} : Parses m rej f s c v c' k → ParsesFields m rej fs s c' vs c'' k' →
      ParsesFields m rej (f :: fs) s c (v :: vs) c'' (k + k')

/-- one format over and over -/
inductive ParsesMany (m : Module) (rej : Format → Scope Format → ReadCtxt → Prop) :
    Format → Scope Format → ReadCtxt → List Value → ReadCtxt → Nat → Prop
  | mnil {f s c} : ParsesMany m rej f s c [] c 0
  | mcons {f s c v c' vs c'' k k'} : Parses m rej f s c v c' k → ParsesMany m rej f s c' vs c'' k' →
      ParsesMany m rej f s c (v :: vs) c'' (k + k')

/-- one format for every item, with a name bound to the item -/
inductive ParsesEach (m : Module) (rej : Format → Scope Format → ReadCtxt → Prop) :
    String → Format → Scope Format → List Value → ReadCtxt → List Value → ReadCtxt → Nat → Prop
  | enil {l f s c} : ParsesEach m rej l f s [] c [] c 0
  | econs {l f s i is c v c' vs c'' k k'} : Parses m rej f (.single l i s) c v c' k →
      ParsesEach m rej l f s is c' vs c'' k' → ParsesEach m rej l f s (i :: is) c (v :: vs) c'' (k + k')

end

end Grammar
end Doodle
