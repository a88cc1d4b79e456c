import Verif.Model.Panicky
import Verif.Model.Bounds

/-!
Model of `ReadCtxt` (/repo/src/read.rs).

The borrowed slice `&[u8]` is the list of its bytes.  `usize` additions are overflow-checked (debug
build); slices are shorter than `2^64`.
-/

namespace Doodle

/-- `usize` addition with the debug overflow check. -/
def addUsize (a b : Nat) : Panicky Nat := if a + b < usizeCard then .ok (a + b) else .panic

/-- `uN::from_be_bytes` (std): most significant byte first. -/
def fromBeBytes (l : List UInt8) : Nat := l.foldl (fun acc b => acc * 256 + b.toNat) 0

/-- `struct ReadCtxt { input, offset }` (src/read.rs:4-8). -/
structure ReadCtxt where
  input : List UInt8
  offset : Nat
deriving DecidableEq, Repr, Inhabited

namespace ReadCtxt

/-- `ReadCtxt::new` (src/read.rs:22-25). -/
def new (input : List UInt8) : ReadCtxt := ⟨input, 0⟩

/-- `ReadCtxt::remaining` (src/read.rs:27-29); slicing past the end panics. -/
def remaining (c : ReadCtxt) : Panicky (List UInt8) :=
  if c.offset ≤ c.input.length then .ok (c.input.drop c.offset) else .panic

/-- `ReadCtxt::seek_to` (src/read.rs:33-39). -/
def seekTo (c : ReadCtxt) (n : Nat) : Option ReadCtxt :=
  if n ≤ c.input.length then some { c with offset := n } else none

/-- `ReadCtxt::split_at` (src/read.rs:49-63); `offset + n` is overflow-checked. -/
def splitAt (c : ReadCtxt) (n : Nat) : Panicky (Option (ReadCtxt × ReadCtxt)) :=
  match addUsize c.offset n with
  | .panic => .panic
  | .ok e =>
    if e ≤ c.input.length then
      .ok (some ({ c with input := c.input.take e }, { c with offset := e }))
    else .ok none

/-- `ReadCtxt::skip_remainder` (src/read.rs:65-71). -/
def skipRemainder (c : ReadCtxt) : ReadCtxt := { c with offset := c.input.length }

/-- `ReadCtxt::read_byte` (src/read.rs:75-88). -/
def readByte (c : ReadCtxt) : Option (UInt8 × ReadCtxt) :=
  match c.input[c.offset]? with
  | some b => some (b, { c with offset := c.offset + 1 })
  | none => none

/-- `read_u16be`, `read_u32be`, `read_u64be` (src/read.rs:90-136): the three have one body with
`SZ = 2, 4, 8`. -/
def readBe (sz : Nat) (c : ReadCtxt) : Option (Nat × ReadCtxt) :=
  if c.offset + sz ≤ c.input.length then
    some (fromBeBytes ((c.input.drop c.offset).take sz), { c with offset := c.offset + sz })
  else none

end ReadCtxt
end Doodle
