import Verif.Spec.Helper

/-! The layout of TIFF headers and directories (TIFF 6.0, section 2), and what their values are to say, independently of how
the format is written. -/

namespace Doodle
namespace Tiff

open Helper (littleEnd bigEnd num)

/-- the number that bytes stand for in this byte order -/
def number (be : Bool) (u : List UInt8) : Nat := if be then bigEnd u else littleEnd u

/-- bytes with the number of 16 bits they stand for -/
def short (be : Bool) (u : List UInt8) : Value := .mapped (.tuple (u.map Value.u8)) (num .b16 (number be u))

/-- bytes with the number of 32 bits they stand for -/
def long (be : Bool) (u : List UInt8) : Value := .mapped (.tuple (u.map Value.u8)) (num .b32 (number be u))

/-- an entry of a directory: twelve bytes -/
structure Entry where
  tag : List UInt8
  type : List UInt8
  length : List UInt8
  data : List UInt8

def Entry.Valid (e : Entry) : Prop := e.tag.length = 2 ∧ e.type.length = 2 ∧ e.length.length = 4 ∧ e.data.length = 4

def Entry.encode (e : Entry) : List UInt8 := e.tag ++ e.type ++ e.length ++ e.data

def Entry.value (be : Bool) (e : Entry) : Value :=
  .record [("tag", short be e.tag), ("type", short be e.type), ("length", long be e.length), ("offset-or-data", long be e.data)]

/-- a directory: the number of its entries, the entries, where the next directory is, and bytes after that -/
structure Directory where
  count : List UInt8
  entries : List Entry
  next : List UInt8
  more : List UInt8

def Directory.Valid (be : Bool) (d : Directory) : Prop :=
  d.count.length = 2 ∧ (∀ e ∈ d.entries, e.Valid) ∧ number be d.count = d.entries.length ∧ d.next.length = 4

def Directory.encode (d : Directory) : List UInt8 := d.count ++ d.entries.flatMap Entry.encode ++ d.next ++ d.more

def Directory.value (be : Bool) (d : Directory) : Value :=
  .record [("num-fields", short be d.count), ("fields", .seq (.strict (d.entries.map (Entry.value be)))),
    ("next-ifd-offset", long be d.next), ("next-ifd", .seq (.strict (d.more.map Value.u8)))]

/-- the bytes that tell the byte order: `II` or `MM` -/
def mark (be : Bool) : List UInt8 := if be then [0x4D, 0x4D] else [0x49, 0x49]

/-- which of two alternatives is taken in this byte order -/
def which (be : Bool) (v : Value) : Value := .branch (if be then 1 else 0) v

/-- what the field of the byte order shows -/
def order (be : Bool) : Value := which be (.variant (if be then "be" else "le") (.tuple ((mark be).map Value.u8)))

/-- the bytes of a header: the byte order, two bytes of magic number, which are not checked, and four of an offset -/
structure Header where
  be : Bool
  magic : List UInt8
  offset : List UInt8

def Header.Valid (h : Header) : Prop := h.magic.length = 2 ∧ h.offset.length = 4

def Header.encode (h : Header) : List UInt8 := mark h.be ++ h.magic ++ h.offset

/-- what is shown of a header at the position `p` with this directory -/
def Header.value (h : Header) (p : Nat) (d : Directory) : Value :=
  .record [("start_of_header", num .b64 p), ("byte-order", order h.be), ("magic", which h.be (short h.be h.magic)),
    ("offset", which h.be (long h.be h.offset)), ("ifd", which h.be (d.value h.be))]

end Tiff
end Doodle
