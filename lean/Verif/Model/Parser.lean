import Verif.Model.Read

/-!
Model of the runtime parser used by generated code (/repo/src/parser/offset.rs, /repo/src/parser/mod.rs,
/repo/src/parser/view.rs).

Every `&mut self` operation returns the parser it leaves behind, also when it returns `Err`, because
generated code goes on with the same parser after an error (`next_alt`, `close_peek_not_context`).
`usize` additions and multiplications are overflow-checked (debug build).  The payloads of error values
are dropped.  The stack of lenses is a list whose head is the top (the end of the `Vec`).
-/

namespace Doodle
namespace Rt

/-- `enum ByteOffset` (src/parser/offset.rs:4-11). -/
inductive ByteOffset where
  | bytes (n : Nat)
  | bits (start advanced : Nat)
deriving DecidableEq, Repr

/-- `usize` multiplication with the debug overflow check. -/
def mulUsize (a b : Nat) : Panicky Nat := if a * b < usizeCard then .ok (a * b) else .panic

/-- `usize` subtraction with the debug overflow check, or `checked_sub(..).unwrap_or_else(unreachable!)`. -/
def subUsize (a b : Nat) : Panicky Nat := if b ≤ a then .ok (a - b) else .panic

namespace ByteOffset

/-- `ByteOffset::is_bit_mode` (src/parser/offset.rs:67-69). -/
def isBitMode : ByteOffset → Bool
  | .bytes _ => false
  | .bits _ _ => true

/-- `ByteOffset::increment_by` (src/parser/offset.rs:71-82). -/
def incrementBy (o : ByteOffset) (delta : Nat) : Panicky ByteOffset :=
  match o with
  | .bytes n => do
    let m ← addUsize n delta
    .ok (.bytes m)
  | .bits s a => do
    let m ← addUsize a delta
    .ok (.bits s m)

/-- `ByteOffset::as_bytes` (src/parser/offset.rs:150-162).  The sum cannot overflow for offsets into a
buffer (at most `2^63` bytes long): it is left unchecked. -/
def asBytes : ByteOffset → Nat × Option Nat
  | .bytes n => (n, none)
  | .bits s a => (s + a / 8, some (a % 8))

/-- `ByteOffset::abs_bit_offset` (src/parser/offset.rs:133-141). -/
def absBitOffset : ByteOffset → Panicky Nat
  | .bytes n => mulUsize n 8
  | .bits s a => do
    let m ← mulUsize s 8
    addUsize m a

/-- `ByteOffset::checked_delta` (src/parser/offset.rs:35-43). -/
def checkedDelta (o other : ByteOffset) : Panicky (Option Nat) :=
  if o.isBitMode then do
    let a ← other.absBitOffset
    let b ← o.absBitOffset
    .ok (if b ≤ a then some (a - b) else none)
  else if other.isBitMode then .panic
  else .ok (if o.asBytes.1 ≤ other.asBytes.1 then some (other.asBytes.1 - o.asBytes.1) else none)

/-- `ByteOffset::delta` (src/parser/offset.rs:46-65). -/
def delta (o other : ByteOffset) : Panicky Nat :=
  if o.isBitMode then do
    let a ← other.absBitOffset
    let b ← o.absBitOffset
    subUsize a b
  else if other.isBitMode then .panic
  else subUsize other.asBytes.1 o.asBytes.1

/-- `impl PartialOrd for ByteOffset` (src/parser/offset.rs:165-179): on equal byte positions an offset in
bytes and one in bits are not comparable. -/
def partialCmp (x y : ByteOffset) : Option Ordering :=
  match compare x.asBytes.1 y.asBytes.1 with
  | .eq =>
    match x.asBytes.2, y.asBytes.2 with
    | none, none => some .eq
    | some m1, some m2 => some (compare m1 m2)
    | _, _ => none
  | o => some o

/-- `a > b`, as derived from `partial_cmp` -/
def gt (x y : ByteOffset) : Bool := x.partialCmp y == some .gt

/-- `a < b`, as derived from `partial_cmp` -/
def lt (x y : ByteOffset) : Bool := x.partialCmp y == some .lt

/-- `ByteOffset::bits_advanced` (src/parser/offset.rs:143-148). -/
def bitsAdvanced : ByteOffset → Option Nat
  | .bytes _ => none
  | .bits _ a => some a

end ByteOffset

/-- `enum Lens` (src/parser/offset.rs:293-312). -/
inductive Lens where
  | alts (checkpoint : ByteOffset)
  | peek (checkpoint : ByteOffset)
  | peekNot (checkpoint : ByteOffset)
  | seek (isTransparent : Bool) (checkpoint : ByteOffset)
  | slice (endpoint : ByteOffset)
deriving DecidableEq, Repr

namespace Lens

/-- `Lens::recover` (src/parser/offset.rs:344-349). -/
def recover : Lens → Option ByteOffset
  | .alts c => some c
  | .peekNot c => some c
  | .peek _ => none
  | .slice _ => none
  | .seek _ _ => none

/-- `Lens::restore` (src/parser/offset.rs:355-362). -/
def restore : Lens → Option ByteOffset
  | .peek c => some c
  | .seek _ c => some c
  | .slice _ => none
  | .alts _ => none
  | .peekNot _ => none

end Lens

/-- `ViewStack` (src/parser/offset.rs:181-185), top first. -/
abbrev ViewStack := List Lens

namespace ViewStack

/-- `ViewStack::get_limit` with `get_limit_from_slice`, `Lens::get_endpoint` and `Answer::or_else`
(src/parser/offset.rs:204-223, 320-337, 368-380): a slice answers, an opaque seek answers "no limit",
everything else passes the question down. -/
def getLimit : ViewStack → Option ByteOffset
  | [] => none
  | .slice e :: _ => some e
  | .seek true _ :: rest => getLimit rest
  | .seek false _ :: _ => none
  | .alts _ :: rest => getLimit rest
  | .peek _ :: rest => getLimit rest
  | .peekNot _ :: rest => getLimit rest

/-- `ViewStack::restore` (src/parser/offset.rs:248-261). -/
def restore : ViewStack → Option (ByteOffset × ViewStack)
  | [] => none
  | l :: rest =>
    match l.restore with
    | some o => some (o, rest)
    | none => restore rest

/-- `ViewStack::recover` (src/parser/offset.rs:274-287). -/
def recover : ViewStack → Option (ByteOffset × ViewStack)
  | [] => none
  | l :: rest =>
    match l.recover with
    | some o => some (o, rest)
    | none => recover rest

end ViewStack

/-- `struct Parser` with its `View` and `BufferOffset` (src/parser/mod.rs:10-13, src/parser/view.rs:14-17,
src/parser/offset.rs:386-393). -/
structure Parser where
  buffer : List UInt8
  startOffset : Nat
  offset : ByteOffset
  stack : ViewStack
  maxOffset : ByteOffset
deriving DecidableEq, Repr

/-- `enum ParseError` and `StateError` (src/parser/error.rs:61-87, 175-198), without payloads. -/
inductive PErr where
  | failToken
  | falsifiedWhere
  | insufficientRepeats
  | negatedSuccess
  | excludedBranch
  | overrunStream
  | overrunSlice
  | negativeIndex
  | incompleteParse (remaining : Nat)
  | unsoundOperation
  | noRecovery
  | unstackableSlices
  | noRestore
  | binaryModeError
  | missingSlice
  | sliceOverrun
  | outOfBoundsRead
  | huffman
deriving DecidableEq, Repr

/-- What an operation returns, together with the parser it leaves behind. -/
inductive OpRes (α : Type) where
  | ok (a : α) (p : Parser)
  | err (e : PErr) (p : Parser)
  | panic
deriving DecidableEq, Repr

namespace OpRes
variable {α β : Type}

/-- `?`: an error is returned to the caller with the parser as it is -/
def bind : OpRes α → (α → Parser → OpRes β) → OpRes β
  | .ok a p, f => f a p
  | .err e p, _ => .err e p
  | .panic, _ => .panic

/-- a computation that may only panic, used by an operation on `p` -/
def lift (p : Parser) : Panicky α → OpRes α
  | .ok a => .ok a p
  | .panic => .panic

theorem bind_eq_ok {x : OpRes α} {f : α → Parser → OpRes β} {b : β} {p' : Parser} :
    x.bind f = .ok b p' ↔ ∃ a p, x = .ok a p ∧ f a p = .ok b p' := by
  cases x with
  | ok a p =>
    simp only [bind, ok.injEq, reduceCtorEq, false_or]
    constructor
    · exact fun h => ⟨a, p, ⟨rfl, rfl⟩, h⟩
    · intro ⟨_, _, ⟨h1, h2⟩, h3⟩
      subst h1 h2
      exact h3
  | err e p => simp [bind]
  | panic => simp [bind]

theorem bind_eq_err {x : OpRes α} {f : α → Parser → OpRes β} {e : PErr} {p' : Parser} :
    x.bind f = .err e p' ↔ x = .err e p' ∨ ∃ a p, x = .ok a p ∧ f a p = .err e p' := by
  cases x with
  | ok a p =>
    simp only [bind, ok.injEq, reduceCtorEq, false_or]
    constructor
    · exact fun h => ⟨a, p, ⟨rfl, rfl⟩, h⟩
    · intro ⟨_, _, ⟨h1, h2⟩, h3⟩
      subst h1 h2
      exact h3
  | err e p => simp [bind]
  | panic => simp [bind]

end OpRes

namespace Parser

/-- `Parser::new` and `From<View>` (src/parser/mod.rs:17-25, 29-35) with `BufferOffset::new`
(src/parser/offset.rs:398-404). -/
def ofView (buffer : List UInt8) (start : Nat) : Parser :=
  { buffer := buffer, startOffset := start, offset := .bytes 0, stack := [],
    maxOffset := .bytes buffer.length }

/-- `Parser::new` (src/parser/mod.rs:29-35). -/
def new (buffer : List UInt8) : Parser := ofView buffer 0

/-- `BufferOffset::current_limit` (src/parser/offset.rs:657-659). -/
def currentLimit (p : Parser) : ByteOffset := (ViewStack.getLimit p.stack).getD p.maxOffset

/-- `BufferOffset::try_increment` (src/parser/offset.rs:459-482): the old offset is returned. -/
def tryIncrement (p : Parser) (delta : Nat) : OpRes ByteOffset :=
  match p.offset.incrementBy delta with
  | .panic => .panic
  | .ok after =>
    match ViewStack.getLimit p.stack with
    | some m => if after.gt m then .err .overrunSlice p else .ok p.offset { p with offset := after }
    | none =>
      if after.gt p.maxOffset then .err .overrunStream p else .ok p.offset { p with offset := after }

/-- `Parser::advance_by` (src/parser/mod.rs:61-68); the argument has been converted to `usize`. -/
def advanceBy (p : Parser) (delta : Nat) : OpRes Unit :=
  (p.tryIncrement delta).bind fun _ p' => .ok () p'

/-- `BufferOffset::seek_to_offset` (src/parser/offset.rs:417-448). -/
def seekToOffset (p : Parser) (absOffset : Nat) (isTransparent : Bool) : OpRes ByteOffset :=
  let dest : ByteOffset := .bytes absOffset
  if dest.gt p.maxOffset then .err .overrunStream p
  else if p.offset.isBitMode then .panic
  else
    let transparent := match ViewStack.getLimit p.stack with
      | some m => dest.lt m && isTransparent
      | none => isTransparent
    .ok p.offset { p with offset := dest, stack := .seek transparent p.offset :: p.stack }

/-- `BufferOffset::open_peek` (src/parser/offset.rs:599-603), `Parser::open_peek_context`
(src/parser/mod.rs:250-252). -/
def openPeek (p : Parser) : Parser := { p with stack := .peek p.offset :: p.stack }

/-- `BufferOffset::open_peek_not` (src/parser/offset.rs:606-610), `Parser::open_peek_not_context`
(src/parser/mod.rs:265-267). -/
def openPeekNot (p : Parser) : Parser := { p with stack := .peekNot p.offset :: p.stack }

/-- `BufferOffset::open_parallel` (src/parser/offset.rs:613-617), `Parser::start_alt`
(src/parser/mod.rs:282-284). -/
def startAlt (p : Parser) : Parser := { p with stack := .alts p.offset :: p.stack }

/-- `Parser::advance_or_seek` (src/parser/mod.rs:84-107); when the advance fails the peek context opened
for it stays on the stack. -/
def advanceOrSeek (p : Parser) (dest : Nat) : OpRes Bool :=
  if dest < p.startOffset then .err .negativeIndex p
  else
    match p.offset.checkedDelta (.bytes (dest - p.startOffset)) with
    | .panic => .panic
    | .ok (some delta) => (p.openPeek.tryIncrement delta).bind fun _ p' => .ok true p'
    | .ok none => (p.seekToOffset (dest - p.startOffset) false).bind fun _ p' => .ok false p'

/-- `Parser::skip_remainder` with `BufferOffset::set_offset` (src/parser/mod.rs:109-114,
src/parser/offset.rs:684-686). -/
def skipRemainder (p : Parser) : Parser := { p with offset := p.currentLimit }

/-- `Parser::read_byte` (src/parser/mod.rs:123-135): in bit mode, bit `n` of the byte. -/
def readByte (p : Parser) : OpRes UInt8 :=
  (p.tryIncrement 1).bind fun old p' =>
    match p'.buffer[old.asBytes.1]? with
    | none => .err .outOfBoundsRead p'
    | some byte =>
      match old.asBytes.2 with
      | none => .ok byte p'
      | some n => .ok ((byte &&& (1 <<< UInt8.ofNat n)) >>> UInt8.ofNat n) p'

/-- `Parser::skip_align` (src/parser/mod.rs:164-182); a remainder by zero panics. -/
def skipAlign (p : Parser) (n : Nat) : OpRes Unit :=
  if n = 0 then .panic
  else
    let aligned : Panicky ByteOffset := match p.offset with
      | .bytes k => if k % n = 0 then .ok (.bytes k) else do
          let m ← mulUsize (k / n + 1) n
          .ok (.bytes m)
      | .bits s a => if a % n = 0 then .ok (.bits s a) else do
          let m ← mulUsize (a / n + 1) n
          .ok (.bits s m)
    ((OpRes.lift p aligned).bind fun o p' => OpRes.lift p' (p'.offset.delta o)).bind fun d p' =>
      p'.advanceBy d

/-- `Parser::enter_bits_mode` (src/parser/mod.rs:192-194, src/parser/offset.rs:102-112). -/
def enterBitsMode (p : Parser) : OpRes Unit :=
  match p.offset with
  | .bytes n => .ok () { p with offset := .bits n 0 }
  | .bits _ _ => .err .binaryModeError p

/-- `Parser::escape_bits_mode` (src/parser/mod.rs:203-205, src/parser/offset.rs:114-131). -/
def escapeBitsMode (p : Parser) : OpRes Nat :=
  match p.offset with
  | .bits s a =>
    .ok a { p with offset := .bytes (if a % 8 ≠ 0 then s + a / 8 + 1 else s + a / 8) }
  | .bytes _ => .err .binaryModeError p

/-- `Parser::get_bits_read` (src/parser/mod.rs:211-213). -/
def getBitsRead (p : Parser) : Option Nat := p.offset.bitsAdvanced

/-- `Parser::start_slice` with `open_slice_unchecked` (src/parser/mod.rs:220-235,
src/parser/offset.rs:527-532). -/
def startSlice (p : Parser) (size : Nat) : OpRes Unit :=
  match p.offset.incrementBy size with
  | .panic => .panic
  | .ok e =>
    if e.gt p.currentLimit then .err .unstackableSlices p
    else .ok () { p with stack := .slice e :: p.stack }

/-- `BufferOffset::close_slice` (src/parser/offset.rs:552-596) on the stack `s` taken from the parser; on
an error the parser is left with an empty stack. -/
def closeSliceFrom (p : Parser) : ViewStack → OpRes Unit
  | .slice e :: rest =>
    if p.offset.gt e then .err .sliceOverrun { p with stack := [] }
    else .ok () { p with offset := e, stack := rest }
  | .alts _ :: rest => closeSliceFrom p rest
  | [] => .err .missingSlice { p with stack := [] }
  | .peekNot _ :: _ => .panic
  | .peek _ :: _ => .panic
  | .seek _ _ :: _ => .panic

/-- `Parser::end_slice` (src/parser/mod.rs:243-246). -/
def endSlice (p : Parser) : OpRes Unit := closeSliceFrom p p.stack

/-- `Parser::close_peek_context`, `BufferOffset::close_peek` (src/parser/mod.rs:258-261,
src/parser/offset.rs:630-637). -/
def closePeek (p : Parser) : OpRes Unit :=
  match ViewStack.restore p.stack with
  | some (o, rest) => .ok () { p with offset := o, stack := rest }
  | none => .err .noRestore { p with stack := [] }

/-- `BufferOffset::recover` (src/parser/offset.rs:644-651), `Parser::close_peek_not_context`
(src/parser/mod.rs:273-276). -/
def recover (p : Parser) : OpRes Unit :=
  match ViewStack.recover p.stack with
  | some (o, rest) => .ok () { p with offset := o, stack := rest }
  | none => .err .noRecovery { p with stack := [] }

/-- `Parser::next_alt` (src/parser/mod.rs:315-321). -/
def nextAlt (p : Parser) (isLast : Bool) : OpRes Unit :=
  p.recover.bind fun _ p' => if isLast then .ok () p' else .ok () p'.startAlt

/-- `Parser::remaining` with `rem_local` (src/parser/mod.rs:326-328, src/parser/offset.rs:665-667). -/
def remaining (p : Parser) : Panicky Nat := p.offset.delta p.currentLimit

/-- `Parser::finish` (src/parser/mod.rs:334-339). -/
def finish (p : Parser) : OpRes Unit :=
  (OpRes.lift p p.remaining).bind fun n p' => if n = 0 then .ok () p' else .err (.incompleteParse n) p'

/-- `Parser::get_offset_u64` (src/parser/mod.rs:352-360). -/
def getOffsetU64 (p : Parser) : Panicky Nat :=
  match p.offset with
  | .bytes n => .ok n
  | .bits _ _ => .panic

/-- `Parser::view` with `View::offset(..).unwrap()` (src/parser/mod.rs:43-48, src/parser/view.rs:32-44):
the rest of the buffer and its absolute start. -/
def view (p : Parser) : Panicky (List UInt8 × Nat) :=
  match p.offset with
  | .bits _ _ => .panic
  | .bytes n => if p.buffer.length < n then .panic else .ok (p.buffer.drop n, p.startOffset + n)

end Parser

/-- The operations of the public interface of `Parser` that change its state (src/parser/mod.rs:61-321). -/
inductive Op where
  | readByte
  | advanceBy (n : Nat)
  | advanceOrSeek (dest : Nat)
  | skipRemainder
  | skipAlign (n : Nat)
  | enterBitsMode
  | escapeBitsMode
  | startSlice (size : Nat)
  | endSlice
  | openPeek
  | closePeek
  | openPeekNot
  | closePeekNot
  | startAlt
  | nextAlt (isLast : Bool)
deriving DecidableEq, Repr

/-- Runs one operation and forgets its result: the parser left behind, unless it panics. -/
def Op.exec (p : Parser) : Op → Panicky Parser :=
  let st {α : Type} : OpRes α → Panicky Parser := fun
    | .ok _ p' => .ok p'
    | .err _ p' => .ok p'
    | .panic => .panic
  fun
  | .readByte => st p.readByte
  | .advanceBy n => st (p.advanceBy n)
  | .advanceOrSeek d => st (p.advanceOrSeek d)
  | .skipRemainder => .ok p.skipRemainder
  | .skipAlign n => st (p.skipAlign n)
  | .enterBitsMode => st p.enterBitsMode
  | .escapeBitsMode => st p.escapeBitsMode
  | .startSlice n => st (p.startSlice n)
  | .endSlice => st p.endSlice
  | .openPeek => .ok p.openPeek
  | .closePeek => st p.closePeek
  | .openPeekNot => .ok p.openPeekNot
  | .closePeekNot => st p.recover
  | .startAlt => .ok p.startAlt
  | .nextAlt b => st (p.nextAlt b)

/-- A history of operations; it goes on after errors, as callers may. -/
def run (p : Parser) : List Op → Panicky Parser
  | [] => .ok p
  | op :: ops => do
    let p' ← op.exec p
    run p' ops

end Rt
end Doodle
