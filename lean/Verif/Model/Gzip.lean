import Verif.Model.Record
import Verif.Model.Helper

/-!
Model of the extra field in the headers of gzip members (/repo/doodle-formats/src/format/gzip.rs).  Its two items come one
after the other in the module; the first of them gets the number `l` of items that are there already.  Names of items are not
modelled; the rest of gzip is not either.
-/

namespace Doodle
namespace Gzip

open Helper (u8 word)

/-- `gzip.fextra.subfield` (doodle-formats/src/format/gzip.rs:59-67), with `ascii_char` (src/helper.rs:1939-1946), which takes
any byte -/
def subfield : Format := Record.record [("si1", u8), ("si2", u8), ("len", word .b16 false), ("data", .repeatCount (.var "len") u8)]

/-- `gzip.fextra` (doodle-formats/src/format/gzip.rs:68-77) -/
def extra (l : Nat) : Format := Record.record [("xlen", word .b16 false), ("subfields", .slice (.var "xlen") (.repeat_ (.itemVar l [] [])))]

/-- the items (doodle-formats/src/format/gzip.rs:59-77) -/
def items (l : Nat) : List Item := [⟨[], [], subfield⟩, ⟨[], [], extra l⟩]

/-- `fextra.call()` (doodle-formats/src/format/gzip.rs:80-80) -/
def main (l : Nat) : Format := .itemVar (l + 1) [] []

end Gzip
end Doodle
