import Verif.Model.Gzip
import Verif.Model.GzipHeader
import Verif.Model.GzipName

/-!
Model of the members of gzip files (/repo/doodle-formats/src/format/gzip.rs), with all items that `main` adds to a module.  The
first of them gets the number `l` of items that are there already.  The format for the data is any item `deflate`; names of items
are not modelled.
-/

namespace Doodle
namespace GzipMember

/-- `record_lens(header, &["file-flags", flag])` (src/helper.rs:690-696, doodle-formats/src/format/gzip.rs:53-53, 79-79, 93-93,
106-106) -/
def has (flag : String) : Expr := .recordProj (.recordProj (.var "header") "file-flags") flag

/-- `gzip_single` (doodle-formats/src/format/gzip.rs:112-120), with `cond_maybe` (src/helper.rs:628-630) for the optional fields
(doodle-formats/src/format/gzip.rs:50-56, 78-81, 92-95, 105-108) -/
def single (deflate l : Nat) : Format := Record.record [
  ("header", .itemVar (l + 1) [] []),
  ("fextra", .maybe (has "fextra") (.itemVar (l + 5) [] [])),
  ("fname", .maybe (has "fname") (.itemVar (l + 3) [] [])),
  ("fcomment", .maybe (has "fcomment") (.itemVar (l + 6) [] [])),
  ("fhcrc", .maybe (has "fhcrc") (.itemVar (l + 7) [] [])),
  ("data", .bits (.itemVar deflate [] [])),
  ("footer", .itemVar (l + 2) [] [])]

/-- the items (doodle-formats/src/format/gzip.rs:15-122), with the format that `fileFlags` makes -/
def items (flags : Format) (deflate l : Nat) : List Item := [⟨[], [], flags⟩, ⟨[], [], GzipHeader.header l⟩, ⟨[], [], GzipHeader.footer⟩,
  ⟨[], [], GzipName.fname⟩, ⟨[], [], Gzip.subfield⟩, ⟨[], [], Gzip.extra (l + 4)⟩, ⟨[], [], GzipName.fcomment⟩,
  ⟨[], [], GzipName.fhcrc⟩, ⟨[], [], .repeat1 (single deflate l)⟩]

/-- `gzip.main` (doodle-formats/src/format/gzip.rs:122-122) -/
def main (l : Nat) : Format := .itemVar (l + 8) [] []

end GzipMember
end Doodle
