import Verif.Model.Record
import Verif.Model.Helper

/-!
Model of the format of RIFF files (/repo/doodle-formats/src/format/riff.rs).  `main` adds four items to a module; the first
of them gets the number `l` of items that are there already.  Names of items are not modelled.
-/

namespace Doodle
namespace Riff

open Helper (lit isByte isBytes u8 word)

/-- `is_odd` of `main` (doodle-formats/src/format/riff.rs:5-8) -/
def isOdd (n : Expr) : Expr := .intRel .eq (.arith .rem n (lit .b32 2)) (lit .b32 1)

/-- `chunk` of `main` (doodle-formats/src/format/riff.rs:10-17) -/
def chunk (tag data : Format) : Format := Record.record [
  ("tag", tag),
  ("length", word .b32 false),
  ("data", .slice (.var "length") data),
  ("pad", .maybe (isOdd (.var "length")) (isByte 0))]

/-- `riff.tag` (doodle-formats/src/format/riff.rs:19-19), with `tuple_repeat` (src/helper.rs:1048-1051) and `ascii_char`
(src/helper.rs:1939-1946), which takes any byte -/
def anyTag : Format := .tuple (List.replicate 4 u8)

/-- `riff.chunk` (doodle-formats/src/format/riff.rs:21-21), with `opaque_bytes` (src/helper.rs:2026-2028) -/
def anyChunk (l : Nat) : Format := chunk (.itemVar l [] []) (.repeat_ u8)

/-- `riff.subchunks` (doodle-formats/src/format/riff.rs:23-29) -/
def subchunks (l : Nat) : Format := Record.record [("tag", .itemVar l [] []), ("chunks", .repeat_ (.itemVar (l + 1) [] []))]

/-- the items (doodle-formats/src/format/riff.rs:19-31) -/
def items (l : Nat) : List Item := [
  ⟨[], [], anyTag⟩,
  ⟨[], [], anyChunk l⟩,
  ⟨[], [], subchunks l⟩,
  ⟨[], [], chunk (isBytes [0x52, 0x49, 0x46, 0x46]) (.itemVar (l + 2) [] [])⟩]

/-- what `main` gives back (doodle-formats/src/format/riff.rs:31-31) -/
def main (l : Nat) : Format := .itemVar (l + 3) [] []

end Riff
end Doodle
