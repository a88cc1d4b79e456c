import Verif.Model.Helper

/-!
Model of small formats of /repo/doodle-formats/src/format: numbers.rs, run_length.rs, peano.rs and waldo.rs.  Each `main`
adds items to a module; the first of them gets the number `l` of items that are there already.  Names of items are not
modelled.
-/

namespace Doodle
namespace Formats

open Num (BitWidth)
open Helper (lit lambdaTuple isByte isBytes u8 word signedWord)

/-- `alts` (src/helper.rs:341-347) -/
def alts (branches : List (String × Format)) : Format := .union (branches.map fun p => .variant p.1 p.2)

namespace Numbers

/-- `numbers.num_value` (doodle-formats/src/format/numbers.rs:6-42) -/
def numValue : Format := alts [
  ("U8Value", .monadSeq (isByte 0x00) u8),
  ("U16BEValue", .monadSeq (isByte 0x01) (word .b16 true)),
  ("U32BEValue", .monadSeq (isByte 0x02) (word .b32 true)),
  ("U64BEValue", .monadSeq (isByte 0x03) (word .b64 true)),
  ("I8Value", .monadSeq (isByte 0x04) (signedWord .b8)),
  ("I16BEValue", .monadSeq (isByte 0x05) (signedWord .b16)),
  ("I32BEValue", .monadSeq (isByte 0x06) (signedWord .b32)),
  ("I64BEValue", .monadSeq (isByte 0x07) (signedWord .b64))]

/-- `numbers.main` (doodle-formats/src/format/numbers.rs:43-49) -/
def numbers (l : Nat) : Format := Record.recordAuto [
  ("__magic", isBytes [0x4E, 0x55, 0x4D, 0x53]),
  ("values", .repeat_ (.itemVar l [] []))]

/-- the items that `main` adds (doodle-formats/src/format/numbers.rs:5-50) -/
def items (l : Nat) : List Item := [⟨[], [], numValue⟩, ⟨[], [], numbers l⟩]

/-- the format that `main` returns (doodle-formats/src/format/numbers.rs:43-49) -/
def main (l : Nat) : Format := .itemVar (l + 1) [] []

end Numbers

namespace Rle

/-- `rle.old-style.run` (doodle-formats/src/format/run_length.rs:5-12) -/
def oldRun : Format := Record.record [
  ("len", u8), ("char", u8), ("buf", .repeatCount (.var "len") (.compute (.var "char")))]

/-- the format of the field `data` (doodle-formats/src/format/run_length.rs:17-23, 40-46) -/
def data (runs : String) : Format :=
  .hint (.compute (.flatMap (.lambda "run" (.recordProj (.var "run") "buf")) (.var runs)))

/-- `rle.old-style` (doodle-formats/src/format/run_length.rs:13-25) -/
def oldStyle (l : Nat) : Format := Record.record [("runs", .repeat_ (.itemVar l [] [])), ("data", data "runs")]

/-- `rle.new-style.run` (doodle-formats/src/format/run_length.rs:28-35) -/
def newRun : Format := Record.record [
  ("_len", u8), ("_char", u8), ("buf", .repeatCount (.var "_len") (.compute (.var "_char")))]

/-- `rle.new-style` (doodle-formats/src/format/run_length.rs:36-48) -/
def newStyle (l : Nat) : Format := Record.recordAuto [("_runs", .repeat_ (.itemVar l [] [])), ("data", data "_runs")]

/-- `rle.main` (doodle-formats/src/format/run_length.rs:51-57) -/
def rle (l : Nat) : Format := .union [
  .monadSeq (isByte 0) (.variant "old-style" (.itemVar (l + 1) [] [])),
  .monadSeq (isByte 1) (.variant "new-style" (.itemVar (l + 3) [] []))]

/-- the items that `main` adds (doodle-formats/src/format/run_length.rs:4-58) -/
def items (l : Nat) : List Item :=
  [⟨[], [], oldRun⟩, ⟨[], [], oldStyle l⟩, ⟨[], [], newRun⟩, ⟨[], [], newStyle (l + 2)⟩, ⟨[], [], rle l⟩]

/-- the format that `main` returns (doodle-formats/src/format/run_length.rs:51-57) -/
def main (l : Nat) : Format := .itemVar (l + 4) [] []

end Rle

namespace Peano

/-- `peano.decimal` (doodle-formats/src/format/peano.rs:5-14) -/
def decimal : Format :=
  .map (.tuple [.repeatBetween (lit .b16 0) (lit .b16 9) (isByte 0x53), isByte 0x5A])
    (lambdaTuple ["s", "_z"] (.seqLength (.var "s")))

/-- the items that `main` adds (doodle-formats/src/format/peano.rs:4-16) -/
def items (l : Nat) : List Item := [⟨[], [], decimal⟩, ⟨[], [], .repeat1 (.itemVar l [] [])⟩]

/-- the format that `main` returns (doodle-formats/src/format/peano.rs:15) -/
def main (l : Nat) : Format := .itemVar (l + 1) [] []

end Peano

namespace Waldo

/-- `waldo.main` (doodle-formats/src/format/waldo.rs:5-37) -/
def waldo : Format := Record.recordAuto [
  ("where", word .b64 true),
  ("noise", .repeat_ (isByte 0xFF)),
  ("__sep", isByte 0x00),
  ("_here", .pos),
  ("waldo", .letView "scope" (.hint
    (.captureBytes (.offset (.var "scope") (.arith .sub (.var "where") (.var "_here"))) (lit .b8 5)))),
  ("__rem", .skipRemainder)]

/-- the item that `main` adds (doodle-formats/src/format/waldo.rs:4-38) -/
def items : List Item := [⟨[], [], waldo⟩]

/-- the format that `main` returns (doodle-formats/src/format/waldo.rs:5-37) -/
def main (l : Nat) : Format := .itemVar l [] []

end Waldo

end Formats
end Doodle
