import Verif.Spec.Helper

/-! The layout of RIFF files, and what their values are to say, independently of how the format is written. -/

namespace Doodle
namespace Riff

open Helper (littleEnd num)

/-- a chunk: its tag, the bytes of its length, what is read of its data, and what is left of the data unread -/
structure Chunk where
  tag : List UInt8
  size : List UInt8
  data : List UInt8
  left : List UInt8

/-- a zero byte after data of odd length, and nothing after data of even length -/
def padding (n : Nat) : List UInt8 := if n % 2 = 1 then [0] else []

/-- what the field of the padding shows -/
def paddingValue (n : Nat) : Value := if n % 2 = 1 then .optSome (.u8 0) else .optNone

/-- four bytes of tag, and four of the length that the data have, read and unread -/
def Chunk.Valid (c : Chunk) : Prop := c.tag.length = 4 ∧ c.size.length = 4 ∧ littleEnd c.size = c.data.length + c.left.length

/-- the bytes of a chunk: the padding is not part of the length -/
def Chunk.encode (c : Chunk) : List UInt8 := c.tag ++ c.size ++ c.data ++ c.left ++ padding (littleEnd c.size)

/-- bytes as a tuple -/
def tupleOf (u : List UInt8) : Value := .tuple (u.map Value.u8)

/-- bytes as a sequence -/
def seqOf (u : List UInt8) : Value := .seq (.strict (u.map Value.u8))

/-- the bytes of a length, with the number they stand for -/
def lengthOf (u : List UInt8) : Value := .mapped (tupleOf u) (num .b32 (littleEnd u))

/-- what the value of a chunk shows -/
def Chunk.value (c : Chunk) : Value :=
  .record [("tag", tupleOf c.tag), ("length", lengthOf c.size), ("data", seqOf c.data), ("pad", paddingValue (littleEnd c.size))]

/-- a file: the bytes of its length, the tag of its form, its chunks, and what is left unread -/
structure File where
  size : List UInt8
  form : List UInt8
  chunks : List Chunk
  left : List UInt8

/-- what the length counts, as far as it is read -/
def File.body (f : File) : List UInt8 := f.form ++ f.chunks.flatMap Chunk.encode

/-- the length is that of the form, the chunks and what is left; the chunks lie within it -/
def File.Valid (f : File) : Prop := f.size.length = 4 ∧ f.form.length = 4 ∧ (∀ c ∈ f.chunks, c.Valid) ∧
  littleEnd f.size = f.body.length + f.left.length

/-- nothing of the data is left unread, neither in the file nor in a chunk -/
def File.Whole (f : File) : Prop := f.left = [] ∧ ∀ c ∈ f.chunks, c.left = []

/-- the letters `RIFF` -/
def magic : List UInt8 := [0x52, 0x49, 0x46, 0x46]

/-- the bytes of a file -/
def File.encode (f : File) : List UInt8 := magic ++ f.size ++ f.body ++ f.left ++ padding (littleEnd f.size)

/-- what the value of a file shows -/
def File.value (f : File) : Value :=
  .record [("tag", tupleOf magic), ("length", lengthOf f.size),
    ("data", .record [("tag", tupleOf f.form), ("chunks", .seq (.strict (f.chunks.map Chunk.value)))]),
    ("pad", paddingValue (littleEnd f.size))]

end Riff
end Doodle
