import Verif.Model.Parser
import Verif.Model.Decoder

/-!
Specification vocabulary for the runtime parser: where the cursor is, which slices are open, which
histories of calls are well bracketed, and the bit stream of a buffer.  Nothing here mentions how the
parser computes anything.
-/

namespace Doodle
namespace Rt

/-- Where an offset is, counted in bits from the start of the buffer. -/
def bitPos : ByteOffset → Nat
  | .bytes n => 8 * n
  | .bits s a => 8 * s + a

/-- The ends of the slices that are open and have been opened since the last random-access seek (a seek
leaves the slices around it). -/
def openSlices : ViewStack → List ByteOffset
  | [] => []
  | .slice e :: rest => e :: openSlices rest
  | .seek true _ :: rest => openSlices rest
  | .seek false _ :: _ => []
  | .alts _ :: rest => openSlices rest
  | .peek _ :: rest => openSlices rest
  | .peekNot _ :: rest => openSlices rest

/-- The cursor is neither past the end of the buffer nor past the end of an open slice. -/
def InWindow (p : Parser) : Prop :=
  bitPos p.offset ≤ 8 * p.buffer.length ∧ ∀ e ∈ openSlices p.stack, bitPos p.offset ≤ bitPos e

/-- Position `i` (in bits) is readable: inside the buffer and before the end of each open slice. -/
def Readable (p : Parser) (i : Nat) : Prop :=
  i < 8 * p.buffer.length ∧ ∀ e ∈ openSlices p.stack, i < bitPos e

/-- In bit mode the caller has checked `remaining()` before moving by `n`. -/
def Checked (p : Parser) (n : Nat) : Prop :=
  p.offset.isBitMode = true → ∃ r, p.remaining = .ok r ∧ n ≤ r

/-- What a careful caller does in bit mode: it looks at `remaining()` before it reads, skips or opens a
slice, it does not seek or align, and it leaves bit mode only after having closed the slices it opened
there.  In byte mode nothing is asked. -/
def Careful (p : Parser) : Op → Prop
  | .readByte => Checked p 1
  | .advanceBy n => Checked p n
  | .startSlice n => Checked p n
  | .advanceOrSeek _ => p.offset.isBitMode = false
  | .skipAlign _ => p.offset.isBitMode = false
  | .escapeBitsMode => p.currentLimit.isBitMode = false
  | _ => True

/-- Every step of the history is careful. -/
def CarefulRun (p : Parser) : List Op → Prop
  | [] => True
  | op :: ops => Careful p op ∧ ∀ p', op.exec p = .ok p' → CarefulRun p' ops

/-- A history in which every call returns `Ok`. -/
inductive RunOk : Parser → List Op → Parser → Prop
  | nil (p : Parser) : RunOk p [] p
  | readByte {p p1 p2 : Parser} {b : UInt8} {ops : List Op} :
      p.readByte = .ok b p1 → RunOk p1 ops p2 → RunOk p (.readByte :: ops) p2
  | advanceBy {p p1 p2 : Parser} {n : Nat} {ops : List Op} :
      p.advanceBy n = .ok () p1 → RunOk p1 ops p2 → RunOk p (.advanceBy n :: ops) p2
  | advanceOrSeek {p p1 p2 : Parser} {n : Nat} {b : Bool} {ops : List Op} :
      p.advanceOrSeek n = .ok b p1 → RunOk p1 ops p2 → RunOk p (.advanceOrSeek n :: ops) p2
  | skipRemainder {p p2 : Parser} {ops : List Op} :
      RunOk p.skipRemainder ops p2 → RunOk p (.skipRemainder :: ops) p2
  | skipAlign {p p1 p2 : Parser} {n : Nat} {ops : List Op} :
      p.skipAlign n = .ok () p1 → RunOk p1 ops p2 → RunOk p (.skipAlign n :: ops) p2
  | enterBitsMode {p p1 p2 : Parser} {ops : List Op} :
      p.enterBitsMode = .ok () p1 → RunOk p1 ops p2 → RunOk p (.enterBitsMode :: ops) p2
  | escapeBitsMode {p p1 p2 : Parser} {k : Nat} {ops : List Op} :
      p.escapeBitsMode = .ok k p1 → RunOk p1 ops p2 → RunOk p (.escapeBitsMode :: ops) p2
  | startSlice {p p1 p2 : Parser} {n : Nat} {ops : List Op} :
      p.startSlice n = .ok () p1 → RunOk p1 ops p2 → RunOk p (.startSlice n :: ops) p2
  | endSlice {p p1 p2 : Parser} {ops : List Op} :
      p.endSlice = .ok () p1 → RunOk p1 ops p2 → RunOk p (.endSlice :: ops) p2
  | openPeek {p p2 : Parser} {ops : List Op} :
      RunOk p.openPeek ops p2 → RunOk p (.openPeek :: ops) p2
  | closePeek {p p1 p2 : Parser} {ops : List Op} :
      p.closePeek = .ok () p1 → RunOk p1 ops p2 → RunOk p (.closePeek :: ops) p2
  | openPeekNot {p p2 : Parser} {ops : List Op} :
      RunOk p.openPeekNot ops p2 → RunOk p (.openPeekNot :: ops) p2
  | closePeekNot {p p1 p2 : Parser} {ops : List Op} :
      p.recover = .ok () p1 → RunOk p1 ops p2 → RunOk p (.closePeekNot :: ops) p2
  | startAlt {p p2 : Parser} {ops : List Op} :
      RunOk p.startAlt ops p2 → RunOk p (.startAlt :: ops) p2
  | nextAlt {p p1 p2 : Parser} {b : Bool} {ops : List Op} :
      p.nextAlt b = .ok () p1 → RunOk p1 ops p2 → RunOk p (.nextAlt b :: ops) p2

/-- Calls that open or close nothing. -/
def Op.plain : Op → Bool
  | .readByte => true
  | .advanceBy _ => true
  | .skipRemainder => true
  | .skipAlign _ => true
  | .enterBitsMode => true
  | .escapeBitsMode => true
  | _ => false

/-- Calls that open a context which a later call closes. -/
def Op.opens : Op → Bool
  | .openPeek => true
  | .advanceOrSeek _ => true
  | .startSlice _ => true
  | _ => false

/-- Well-bracketed histories of calls: peeks, seeks and slices are closed by the matching call.  An
alternation whose branch succeeds is not closed by any call (`startAlt` below), an alternation or negative
lookahead whose body breaks off is continued by `nextAlt` or `closePeekNot`. -/
inductive Bracketed : List Op → Prop
  | nil : Bracketed []
  | plain {op : Op} {ops : List Op} : op.plain = true → Bracketed ops → Bracketed (op :: ops)
  | peek {body ops : List Op} :
      Bracketed body → Bracketed ops → Bracketed (.openPeek :: (body ++ .closePeek :: ops))
  | seek {d : Nat} {body ops : List Op} :
      Bracketed body → Bracketed ops → Bracketed (.advanceOrSeek d :: (body ++ .closePeek :: ops))
  | slice {n : Nat} {body ops : List Op} :
      Bracketed body → Bracketed ops → Bracketed (.startSlice n :: (body ++ .endSlice :: ops))
  | branch {ops : List Op} : Bracketed ops → Bracketed (.startAlt :: ops)

/-- A well-bracketed history that breaks off somewhere.  Alternations and negative lookaheads may occur
only inside peeks, seeks and slices that are closed before it breaks off. -/
inductive BrokenOff : List Op → Prop
  | nil : BrokenOff []
  | plain {op : Op} {ops : List Op} : op.plain = true → BrokenOff ops → BrokenOff (op :: ops)
  | peek {body ops : List Op} : Bracketed body →
      BrokenOff ops → BrokenOff (.openPeek :: (body ++ .closePeek :: ops))
  | seek {d : Nat} {body ops : List Op} : Bracketed body →
      BrokenOff ops → BrokenOff (.advanceOrSeek d :: (body ++ .closePeek :: ops))
  | slice {n : Nat} {body ops : List Op} : Bracketed body →
      BrokenOff ops → BrokenOff (.startSlice n :: (body ++ .endSlice :: ops))
  | opened {op : Op} {ops : List Op} : op.opens = true → BrokenOff ops → BrokenOff (op :: ops)

/-- The bits of a buffer: byte by byte, least significant bit first. -/
def bitStream (buffer : List UInt8) : List UInt8 :=
  buffer.flatMap fun b => (List.range 8).map fun i => UInt8.ofNat (b.toNat / 2 ^ i % 2)

/-- `n` successive reads that all succeed, with what they deliver. -/
inductive Reads : Parser → List UInt8 → Parser → Prop
  | nil (p : Parser) : Reads p [] p
  | cons {p p1 p2 : Parser} {b : UInt8} {bs : List UInt8} :
      p.readByte = .ok b p1 → Reads p1 bs p2 → Reads p (b :: bs) p2

end Rt
end Doodle
