import Verif.Model.Record
import Verif.Model.Helper

/-!
Model of the fixed parts of gzip members, before and after the optional fields and the data
(/repo/doodle-formats/src/format/gzip.rs).  The three items come one after the other in the module; the first of them gets the
number `l` of items that are there already.  Names of items are not modelled.
-/

namespace Doodle
namespace GzipHeader

open Helper (u8 word)

/-- `gzip.header.file-flags` (doodle-formats/src/format/gzip.rs:15-31) -/
def fileFlags : Panicky Format :=
  Helper.bitFields .b8 [.reserved 3 true, .flag "fcomment", .flag "fname", .flag "fextra", .flag "fhcrc", .flag "ftext"]

/-- `gzip.header` (doodle-formats/src/format/gzip.rs:33-43) -/
def header (l : Nat) : Format :=
  Record.record [("magic", Helper.byteSeq [0x1F, 0x8B]), ("method", u8), ("file-flags", .itemVar l [] []),
    ("timestamp", word .b32 false), ("compression-flags", u8), ("os-id", u8)]

/-- `gzip.footer` (doodle-formats/src/format/gzip.rs:45-48) -/
def footer : Format := Record.record [("crc", word .b32 false), ("length", word .b32 false)]

/-- the items (doodle-formats/src/format/gzip.rs:15-48), with the format that `fileFlags` makes -/
def items (flags : Format) (l : Nat) : List Item := [⟨[], [], flags⟩, ⟨[], [], header l⟩, ⟨[], [], footer⟩]

/-- `header.call()` (doodle-formats/src/format/gzip.rs:113-113) -/
def callHeader (l : Nat) : Format := .itemVar (l + 1) [] []

/-- `footer.call()` (doodle-formats/src/format/gzip.rs:119-119) -/
def callFooter (l : Nat) : Format := .itemVar (l + 2) [] []

end GzipHeader
end Doodle
