import Verif.Model.Helper

/-!
Model of the UTF-8 text format of /repo/doodle-formats/src/format/text.rs.  `text::main` adds six items to a module; the
first of them gets the number `l` of items that are there already.
-/

namespace Doodle
namespace Text

open Num (BitWidth)
open Helper (lit lambdaTuple isByte)

/-- `DROPMASKS` (doodle-formats/src/format/text.rs:7-14) -/
def dropMasks : List Nat := [0b1111_1111, 0b0111_1111, 0b0011_1111, 0b0001_1111, 0b0000_1111, 0b0000_0111]

/-- `drop_n_msb` (doodle-formats/src/format/text.rs:16-21); an index out of the table panics in the code, but `n` is a
constant below 6 wherever it is used -/
def dropMsb (n : Nat) (f : Format) : Format :=
  .map f (.lambda "raw" (.arith .bitAnd (.var "raw") (lit .b8 (dropMasks.getD n 0))))

/-- `byte_in` on an inclusive range (src/helper.rs:647-652) -/
def byteIn (lo hi : UInt8) : Format := .byte (ByteSet.fromRangeInclusive lo hi)

/-- `VALID_ASCII` (src/helper.rs:1860-1861) -/
def validAscii : ByteSet := ByteSet.fromBits (BitVec.allOnes 64) (BitVec.allOnes 64) 0 0

/-- `shift6_2` (doodle-formats/src/format/text.rs:118-120) -/
def shift62 (hi lo : Expr) : Expr := .arith .bitOr (.arith .shl (.asNum .b32 hi) (lit .b32 6)) (.asNum .b32 lo)

/-- `shift6_3` (doodle-formats/src/format/text.rs:122-124) -/
def shift63 (hi mid lo : Expr) : Expr := .arith .bitOr (.arith .shl (.asNum .b32 hi) (lit .b32 12)) (shift62 mid lo)

/-- `shift6_4` (doodle-formats/src/format/text.rs:126-128) -/
def shift64 (hh hl lh ll : Expr) : Expr :=
  .arith .bitOr (.arith .shl (.asNum .b32 hh) (lit .b32 18)) (shift63 hl lh ll)

/-- `utf8_tail`, the first item (doodle-formats/src/format/text.rs:24) -/
def utf8Tail : Format := dropMsb 2 (byteIn 0x80 0xBF)

/-- `utf8_tail.call()` -/
def tail (l : Nat) : Format := .itemVar l [] []

/-- `utf8_1_nz` with `ascii_nz` (doodle-formats/src/format/text.rs:26-28) -/
def utf81 : Format :=
  .map (.byte (validAscii.intersection (ByteSet.singleton 0).complement)) (.lambda "byte" (.asNum .b32 (.var "byte")))

/-- `utf8_2` (doodle-formats/src/format/text.rs:30-33) -/
def utf82 (l : Nat) : Format :=
  .map (.tuple [dropMsb 3 (byteIn 0xC2 0xDF), tail l]) (lambdaTuple ["x1", "x0"] (shift62 (.var "x1") (.var "x0")))

/-- `utf8_3` (doodle-formats/src/format/text.rs:35-62) -/
def utf83 (l : Nat) : Format :=
  .map (.union [
      .tuple [dropMsb 4 (isByte 0xE0), dropMsb 2 (byteIn 0xA0 0xBF), tail l],
      .tuple [dropMsb 4 (byteIn 0xE1 0xEC), tail l, tail l],
      .tuple [dropMsb 4 (isByte 0xED), dropMsb 2 (byteIn 0x80 0x9F), tail l],
      .tuple [dropMsb 4 (byteIn 0xEE 0xEF), tail l, tail l]])
    (lambdaTuple ["x2", "x1", "x0"] (shift63 (.var "x2") (.var "x1") (.var "x0")))

/-- `utf8_4` (doodle-formats/src/format/text.rs:64-89) -/
def utf84 (l : Nat) : Format :=
  .map (.union [
      .tuple [dropMsb 5 (isByte 0xF0), dropMsb 2 (byteIn 0x90 0xBF), tail l, tail l],
      .tuple [dropMsb 5 (byteIn 0xF1 0xF3), tail l, tail l, tail l],
      .tuple [dropMsb 5 (isByte 0xF4), dropMsb 2 (byteIn 0x80 0x8F), tail l, tail l]])
    (lambdaTuple ["x3", "x2", "x1", "x0"] (shift64 (.var "x3") (.var "x2") (.var "x1") (.var "x0")))

/-- `utf8_char_nz` (doodle-formats/src/format/text.rs:91-97) -/
def utf8CharNz (l : Nat) : Format :=
  .map (.union [utf81, utf82 l, utf83 l, utf84 l]) (.lambda "codepoint" (.asChar (.var "codepoint")))

/-- `utf8_char` (doodle-formats/src/format/text.rs:100-109) -/
def utf8Char (l : Nat) : Format :=
  .union [.map (isByte 0) (.lambda "_" (.asChar (lit .b32 0))), .itemVar (l + 1) [] []]

/-- the items `text::main` adds to a module of `l` items (doodle-formats/src/format/text.rs:23-116): `utf8.byte.trailing`,
`text.utf8.char.non-null`, `text.utf8.char`, `text.string.utf8.non-null`, `text.string.utf8`, `text.string` -/
def items (l : Nat) : List Item := [
  ⟨[], [], utf8Tail⟩,
  ⟨[], [], utf8CharNz l⟩,
  ⟨[], [], utf8Char l⟩,
  ⟨[], [], .repeat_ (.itemVar (l + 1) [] [])⟩,
  ⟨[], [], .repeat_ (.itemVar (l + 2) [] [])⟩,
  ⟨[], [], .itemVar (l + 4) [] []⟩]

/-- the string of characters other than NUL, the second result of `text::main` (doodle-formats/src/format/text.rs:111, 115) -/
def zstring (l : Nat) : Format := .itemVar (l + 3) [] []

/-- the string, the first result of `text::main` (doodle-formats/src/format/text.rs:112-115) -/
def string (l : Nat) : Format := .itemVar (l + 5) [] []

end Text
end Doodle
