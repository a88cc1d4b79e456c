import Verif.Model.Record
import Verif.Model.Helper

/-!
Model of the optional fields for the name, the comment and the checksum in the headers of gzip members
(/repo/doodle-formats/src/format/gzip.rs).  Names of items are not modelled.
-/

namespace Doodle
namespace GzipName

open Helper (asciizString word)

/-- `gzip.fname` (doodle-formats/src/format/gzip.rs:51-51) -/
def fname : Format := asciizString

/-- `gzip.fcomment` (doodle-formats/src/format/gzip.rs:85-91) -/
def fcomment : Format := Record.record [("comment", asciizString)]

/-- `gzip.fhcrc` (doodle-formats/src/format/gzip.rs:99-104) -/
def fhcrc : Format := Record.record [("crc", word .b16 false)]

end GzipName
end Doodle
