import Verif.Spec.Helper

/-! The documents of some small formats, and what their values are to say, independently of how the formats are written. -/

namespace Doodle
namespace Formats

open Num (BitWidth)
open Helper (bigEnd twosComplement num)

/-! ### numbers -/

namespace Numbers

/-- a number of a document: whether it is signed, how wide it is, and its bytes -/
structure Entry where
  signed : Bool
  width : BitWidth
  bytes : List UInt8

/-- it has as many bytes as its width says -/
def Entry.Valid (e : Entry) : Prop := e.bytes.length = e.width.bits / 8

/-- the byte that announces a number -/
def tag : Bool → BitWidth → UInt8
  | false, .b8 => 0
  | false, .b16 => 1
  | false, .b32 => 2
  | false, .b64 => 3
  | true, .b8 => 4
  | true, .b16 => 5
  | true, .b32 => 6
  | true, .b64 => 7

/-- the name of the alternative -/
def name : Bool → BitWidth → String
  | false, .b8 => "U8Value"
  | false, .b16 => "U16BEValue"
  | false, .b32 => "U32BEValue"
  | false, .b64 => "U64BEValue"
  | true, .b8 => "I8Value"
  | true, .b16 => "I16BEValue"
  | true, .b32 => "I32BEValue"
  | true, .b64 => "I64BEValue"

/-- the entry in the document -/
def Entry.encode (e : Entry) : List UInt8 := tag e.signed e.width :: e.bytes

/-- the number: big-endian, in two's complement if it is signed -/
def Entry.value (e : Entry) : Value :=
  if e.signed then .numeric ⟨twosComplement e.width (bigEnd e.bytes), .concrete ⟨true, e.width⟩⟩
  else num e.width (bigEnd e.bytes)

/-- `NUMS` -/
def magic : List UInt8 := [78, 85, 77, 83]

/-- the bytes of a document -/
def document (es : List Entry) : List UInt8 := magic ++ es.flatMap Entry.encode

/-- the name and the content of a value that is one of the alternatives -/
def shown : Value → Option (String × Value)
  | .branch _ (.variant l v) => some (l, v.coerceMapped)
  | _ => none

/-- The value is a record with one field, the list of the entries. -/
def IsDocument (v : Value) (es : List Entry) : Prop :=
  ∃ vs, v = .record [("values", .seq (.strict vs))] ∧ vs.map shown = es.map fun e => some (name e.signed e.width, e.value)

end Numbers

/-! ### run-length encoding -/

namespace Rle

/-- the bytes of the runs, two for each: a length and a byte -/
def encode (rs : List (UInt8 × UInt8)) : List UInt8 := rs.flatMap fun r => [r.1, r.2]

/-- what the runs stand for: every byte as many times as its length says -/
def expand (rs : List (UInt8 × UInt8)) : List UInt8 := rs.flatMap fun r => List.replicate r.1.toNat r.2

/-- the field of the record with this name -/
def field (x : String) : Value → Option Value
  | .record fs => (fs.find? fun p => p.1 = x).map (·.2)
  | _ => none

/-- The value is what the runs stand for, as one of the two alternatives. -/
def Expands (v : Value) (kind : String) (rs : List (UInt8 × UInt8)) : Prop :=
  ∃ i w, v = .branch i (.variant kind w) ∧ field "data" w = some (.seq (.strict ((expand rs).map Value.u8)))

end Rle

/-! ### peano -/

namespace Peano

/-- a number in the document: as many `S`, and a `Z` -/
def encode (n : Nat) : List UInt8 := List.replicate n 0x53 ++ [0x5A]

/-- The value is the sequence of the numbers. -/
def Counts (v : Value) (ns : List Nat) : Prop := ∃ vs, v = .seq (.strict vs) ∧ vs.map Value.coerceMapped = ns.map (num .b32)

end Peano

end Formats
end Doodle
