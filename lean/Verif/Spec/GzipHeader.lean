import Verif.Spec.Helper

/-! The layout of the header and of the trailer of gzip members (RFC 1952, 2.3), and what their values are to say,
independently of how the formats are written. -/

namespace Doodle
namespace GzipHeader

open Helper (littleEnd num)

/-- a number of four bytes, the least significant first: its bytes, with the number they stand for -/
def numberOf (u : List UInt8) : Value := .mapped (.tuple (u.map Value.u8)) (num .b32 (littleEnd u))

/-- a header: its method, its flags, the bytes of its time, its extra flags and its operating system -/
structure Header where
  method : UInt8
  flags : UInt8
  time : List UInt8
  extra : UInt8
  os : UInt8

/-- the time has four bytes -/
def Header.Valid (h : Header) : Prop := h.time.length = 4

/-- the reserved bits, the three most significant ones of the flags, are zero, as RFC 1952 demands -/
def Header.Compliant (h : Header) : Prop :=
  h.flags.toNat.testBit 5 = false ∧ h.flags.toNat.testBit 6 = false ∧ h.flags.toNat.testBit 7 = false

/-- the bytes of a header -/
def Header.encode (h : Header) : List UInt8 := 0x1F :: 0x8B :: h.method :: h.flags :: h.time ++ [h.extra, h.os]

/-- what the value of the flags shows: bit 0 is `ftext` -/
def flagsValue (b : UInt8) : Value :=
  .record [("fcomment", .bool (b.toNat.testBit 4)), ("fname", .bool (b.toNat.testBit 3)), ("fextra", .bool (b.toNat.testBit 2)),
    ("fhcrc", .bool (b.toNat.testBit 1)), ("ftext", .bool (b.toNat.testBit 0))]

/-- what the value of a header shows -/
def Header.value (h : Header) : Value :=
  .record [("magic", .seq (.strict [.u8 0x1F, .u8 0x8B])), ("method", .u8 h.method), ("file-flags", flagsValue h.flags),
    ("timestamp", numberOf h.time), ("compression-flags", .u8 h.extra), ("os-id", .u8 h.os)]

/-- a trailer: the bytes of the checksum and of the length -/
structure Footer where
  crc : List UInt8
  size : List UInt8

/-- both have four bytes -/
def Footer.Valid (f : Footer) : Prop := f.crc.length = 4 ∧ f.size.length = 4

/-- the bytes of a trailer -/
def Footer.encode (f : Footer) : List UInt8 := f.crc ++ f.size

/-- what its value shows -/
def Footer.value (f : Footer) : Value := .record [("crc", numberOf f.crc), ("length", numberOf f.size)]

end GzipHeader
end Doodle
