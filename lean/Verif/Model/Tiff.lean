import Verif.Model.Formats

/-!
Model of the format of TIFF headers (/repo/doodle-formats/src/format/tiff.rs).  `main` adds five items to a module; the first
of them gets the number `l` of items that are there already.  Names of items and types of arguments are not modelled.
-/

namespace Doodle
namespace Tiff

open Helper (isBytes u8 word)

/-- `ifd_field` (doodle-formats/src/format/tiff.rs:83-91) -/
def entry (be : Bool) : Format := Record.record [
  ("tag", word .b16 be),
  ("type", word .b16 be),
  ("length", word .b32 be),
  ("offset-or-data", word .b32 be)]

/-- `ifd` (doodle-formats/src/format/tiff.rs:71-80), with `opaque_bytes` (src/helper.rs:2026-2028) -/
def directory (be : Bool) : Format := Record.record [
  ("num-fields", word .b16 be),
  ("fields", .repeatCount (.var "num-fields") (entry be)),
  ("next-ifd-offset", word .b32 be),
  ("next-ifd", .repeat_ u8)]

/-- the `Format::Match` on the byte order (doodle-formats/src/format/tiff.rs:21-27, 38-44, 48-54) -/
def byOrder (le be : Format) : Format := .match_ (.var "byte-order") [(.variant "le" .wildcard, le), (.variant "be" .wildcard, be)]

/-- `tiff.byte-order` (doodle-formats/src/format/tiff.rs:11-14) -/
def orders : Format := Formats.alts [("le", isBytes [0x49, 0x49]), ("be", isBytes [0x4D, 0x4D])]

/-- `tiff.main` (doodle-formats/src/format/tiff.rs:32-66); `pos32` is `Format::Pos` (src/helper.rs:1686-1688) -/
def header (l : Nat) : Format := Record.record [
  ("start_of_header", .pos),
  ("byte-order", .itemVar (l + 2) [] []),
  ("magic", byOrder (word .b16 false) (word .b16 true)),
  ("offset", byOrder (word .b32 false) (word .b32 true)),
  ("ifd", .withRelativeOffset (.var "start_of_header") (.var "offset") (.itemVar (l + 3) [.var "byte-order"] []))]

/-- the items (doodle-formats/src/format/tiff.rs:8-67) -/
def items (l : Nat) : List Item := [
  ⟨[], [], directory false⟩,
  ⟨[], [], directory true⟩,
  ⟨[], [], orders⟩,
  ⟨["byte-order"], [], byOrder (.itemVar l [] []) (.itemVar (l + 1) [] [])⟩,
  ⟨[], [], header l⟩]

/-- what `main` gives back (doodle-formats/src/format/tiff.rs:30-31) -/
def main (l : Nat) : Format := .itemVar (l + 4) [] []

end Tiff
end Doodle
