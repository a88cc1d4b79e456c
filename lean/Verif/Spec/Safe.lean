import Verif.Spec.Grammar

/-!
Specification: when a format asks nothing impossible.  `Safe m codes f s c`: when the input is read from the
window `c` in scope `s`, every expression of the format `f` that is reached has a value, of the kind the format
needs.  It says nothing about whether the input is right.

`codes g` says that a decoder can be made of the Huffman code `g`.  Reached positions are described by derivations
that may assume any rejection (`anyRej`).
-/

namespace Doodle
namespace Grammar

/-- rejections are not looked into -/
def anyRej : Format → Scope Format → ReadCtxt → Prop := fun _ _ _ => True

/-- The view expression names a view, and advances it by a number. -/
inductive SafeView (s : Scope Format) : ViewExpr → Prop
  | var {name c} : s.getView name = some c → SafeView s (.var name)
  | offset {base e n} : SafeView s base → DenotesNat e s n →
      (∀ c, ViewAt s base c → c.offset + n < usizeCard) → SafeView s (.offset base e)

/-- the accumulator after the items -/
inductive AccumAfter (update : Expr) (s : Scope Format) : Value → List Value → Value → Prop
  | nil {a} : AccumAfter update s a [] a
  | cons {a a' v vs r} : Sends update s (.tuple [a, v]) a' → AccumAfter update s a' vs r →
      AccumAfter update s a (v :: vs) r

/-- the truth value of the function is defined -/
def Tells (e : Expr) (s : Scope Format) (v : Value) : Prop := ∃ b, Sends e s v (.bool b)

inductive Safe (m : Module) (codes : Format → Prop) : Format → Scope Format → ReadCtxt → Prop
  | itemVar {level args views it s c} : m.items[level]? = some it →
      (∀ p ∈ it.args.zip args, ∃ v, Denotes p.2 s v) → (∀ p ∈ it.views.zip views, SafeView s p.2) →
      (∀ es vs, ArgsAre s (it.args.zip args) es → ViewsAre s (it.views.zip views) vs →
        Safe m codes it.format (.multi (es ++ vs) .empty) c) → Safe m codes (.itemVar level args views) s c
  | fail {s c} : Safe m codes .fail s c
  | endOfInput {s c} : Safe m codes .endOfInput s c
  | align {n s c} : 0 < n → c.offset + n ≤ usizeCard → Safe m codes (.align n) s c
  | byte {bs s c} : Safe m codes (.byte bs) s c
  | variant {l f s c} : Safe m codes f s c → Safe m codes (.variant l f) s c
  | union {fs s c} : (∀ f ∈ fs, Safe m codes f s c) → Safe m codes (.union fs) s c
  | unionNondet {fs s c} : (∀ f ∈ fs, Safe m codes f s c) → Safe m codes (.unionNondet fs) s c
  | tuple {fs s c} : (∀ (i : Nat) f vs c' k, fs[i]? = some f → ParsesFields m anyRej (fs.take i) s c vs c' k → Safe m codes f s c') →
      Safe m codes (.tuple fs) s c
  | sequence {fs s c} : (∀ (i : Nat) f vs c' k, fs[i]? = some f → ParsesFields m anyRej (fs.take i) s c vs c' k → Safe m codes f s c') →
      Safe m codes (.sequence fs) s c
  | repeat_ {f s c} : (∀ vs c' k, ParsesMany m anyRej f s c vs c' k → Safe m codes f s c') →
      Safe m codes (.repeat_ f) s c
  | repeat1 {f s c} : (∀ vs c' k, ParsesMany m anyRej f s c vs c' k → Safe m codes f s c') →
      Safe m codes (.repeat1 f) s c
  | repeatCount {e f n s c} : DenotesNat e s n →
      (∀ vs c' k, ParsesMany m anyRej f s c vs c' k → vs.length < n → Safe m codes f s c') →
      Safe m codes (.repeatCount e f) s c
  /-- the least number has to be zero -/
  | repeatBetween {x y f hi s c} : DenotesNat x s 0 → DenotesNat y s hi →
      (∀ vs c' k, ParsesMany m anyRej f s c vs c' k → Safe m codes f s c') →
      Safe m codes (.repeatBetween x y f) s c
  | repeatUntilLast {e f s c} : (∀ vs c' k, ParsesMany m anyRej f s c vs c' k → Safe m codes f s c') →
      (∀ vs v c' k, ParsesMany m anyRej f s c (vs ++ [v]) c' k → Tells e s v) →
      Safe m codes (.repeatUntilLast e f) s c
  | repeatUntilSeq {e f s c} : (∀ vs c' k, ParsesMany m anyRej f s c vs c' k → Safe m codes f s c') →
      (∀ vs c' k, ParsesMany m anyRej f s c vs c' k → vs ≠ [] → Tells e s (.seq (.strict vs))) →
      Safe m codes (.repeatUntilSeq e f) s c
  | accumUntil {done update init ty f a s c} : Denotes init s a →
      (∀ vs c' k b, ParsesMany m anyRej f s c vs c' k → AccumAfter update s a vs b →
        Tells done s (.tuple [b, .seq (.strict vs)])) →
      (∀ vs c' k b, ParsesMany m anyRej f s c vs c' k → AccumAfter update s a vs b → Safe m codes f s c') →
      (∀ vs v c' k b, ParsesMany m anyRej f s c (vs ++ [v]) c' k → AccumAfter update s a vs b →
        ∃ b', Sends update s (.tuple [b, v]) b') →
      Safe m codes (.accumUntil done update init ty f) s c
  | forEach {e l f items s c} : DenotesItems e s items →
      (∀ before v after vs c' k, items = before ++ v :: after → ParsesEach m anyRej l f s before c vs c' k →
        Safe m codes f (.single l v s) c') → Safe m codes (.forEach e l f) s c
  | maybe {e f b s c} : DenotesBool e s b → (b = true → Safe m codes f s c) → Safe m codes (.maybe e f) s c
  | peek {f s c} : Safe m codes f s c → Safe m codes (.peek f) s c
  | peekNot {f s c} : Safe m codes f s c → Safe m codes (.peekNot f) s c
  | slice {e f n s c} : DenotesNat e s n → c.offset + n < usizeCard →
      (c.offset + n ≤ c.input.length → Safe m codes f s ⟨c.input.take (c.offset + n), c.offset⟩) →
      Safe m codes (.slice e f) s c
  | bits {f s c} : c.offset ≤ c.input.length → c.input.length < usizeCard →
      Safe m codes f s ⟨bitStream (c.input.drop c.offset), 0⟩ → Safe m codes (.bits f) s c
  | withRelativeOffset {base off f b o s c} : DenotesNat base s b → DenotesNat off s o → b + o < usizeCard →
      (b + o ≤ c.input.length → Safe m codes f s ⟨c.input, b + o⟩) →
      Safe m codes (.withRelativeOffset base off f) s c
  | map {f e s c} : Safe m codes f s c → (∀ v c' k, Parses m anyRej f s c v c' k → ∃ w, Sends e s v w) →
      Safe m codes (.map f e) s c
  | where_ {f e strict s c} : Safe m codes f s c → (∀ v c' k, Parses m anyRej f s c v c' k → Tells e s v) →
      Safe m codes (.where_ f e strict) s c
  | compute {e v s c} : Denotes e s v → Safe m codes (.compute e) s c
  | let_ {x e f v s c} : Denotes e s v → Safe m codes f (.single x v s) c → Safe m codes (.let_ x e f) s c
  /-- one of the patterns matches -/
  | match_ {head branches} {i : Nat} {p f h bs s c} : head.eval s = .ok h → branches[i]? = some (p, f) →
      h.matchesPat p = some bs → (∀ j < i, ∀ q g, branches[j]? = some (q, g) → h.matchesPat q = none) →
      Safe m codes f (s.withBindings bs) c → Safe m codes (.match_ head branches) s c
  | dynamic {x ls vs f g lv s c} : Decoder.evalHuffman s ls vs = .ok lv → Decoder.huffmanFormat lv.1 lv.2 = .ok g →
      codes g → Safe m codes f (.decoder x g s) c → Safe m codes (.dynamic x ls vs f) s c
  | apply {x g s c} : s.getDecoder x = some g → Safe m codes g s c → Safe m codes (.apply x) s c
  | pos {s c} : Safe m codes .pos s c
  | skipRemainder {s c} : Safe m codes .skipRemainder s c
  | decodeBytes {e f items bytes s c} : DenotesItems e s items → AreBytes items bytes →
      Safe m codes f s ⟨bytes, 0⟩ → Safe m codes (.decodeBytes e f) s c
  | letFormat {f x g s c} : Safe m codes f s c →
      (∀ v c' k, Parses m anyRej f s c v c' k → Safe m codes g (.single x v s) c') →
      Safe m codes (.letFormat f x g) s c
  | monadSeq {f g s c} : Safe m codes f s c → (∀ v c' k, Parses m anyRej f s c v c' k → Safe m codes g s c') →
      Safe m codes (.monadSeq f g) s c
  | hint {f s c} : Safe m codes f s c → Safe m codes (.hint f) s c
  | liftedNone {s c} : Safe m codes .liftedNone s c
  | liftedSome {f s c} : Safe m codes f s c → Safe m codes (.liftedSome f) s c
  | letView {x f s c} : Safe m codes f (.view x c s) c → Safe m codes (.letView x f) s c
  | captureBytes {e len n s c} : SafeView s e → DenotesNat len s n → Safe m codes (.captureBytes e len) s c
  /-- little-endian elements of more than one byte are not implemented -/
  | readArray {e len kind n s c} : SafeView s e → DenotesNat len s n →
      (n ≠ 0 → kind.width = .b8 ∨ kind.be = true) → Safe m codes (.readArray e len kind) s c
  | reifyView {e s c} : SafeView s e → Safe m codes (.reifyView e) s c
  | parseFromView {e f s c} : SafeView s e → (∀ w, ViewAt s e w → Safe m codes f s w) →
      Safe m codes (.parseFromView e f) s c
  | phantom {f s c} : Safe m codes (.phantom f) s c
  | enforce {f s c} : Safe m codes f s c → Safe m codes (.enforce f) s c
  | permit {f e v s c} : Safe m codes f s c → Denotes e s v → Safe m codes (.permit f e) s c

end Grammar
end Doodle
