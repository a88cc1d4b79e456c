import Verif.Model.Panicky
import Verif.Model.Read

/-! Model of canonical prefix codes: `make_huffman_decoder`, `HuffmanNode`, `HuffmanDriver` of the
runtime (/repo/src/prelude.rs) and `make_huffman_codes` of the interpreter (/repo/src/decoder.rs; the
copy in /repo/src/loc_decoder.rs:1987-2037 is textually the same). -/

namespace Doodle
namespace Huffman

/-- `*lengths.iter().max().unwrap()` (src/prelude.rs:304, src/decoder.rs:1773). -/
def maxLength : List Nat → Panicky Nat
  | [] => .panic
  | l :: ls => .ok (ls.foldl Nat.max l)

/-- `xs[i]` on a `Vec` (std): out of range panics. -/
def load (xs : List Nat) (i : Nat) : Panicky Nat :=
  match xs[i]? with
  | some v => .ok v
  | none => .panic

/-- `xs[i] = v` on a `Vec` (std): out of range panics. -/
def store (xs : List Nat) (i v : Nat) : Panicky (List Nat) :=
  if i < xs.length then .ok (xs.set i v) else .panic

/-- `for len in lengths { bl_count[*len] += 1; }` (src/prelude.rs:307-309, src/decoder.rs:1776-1778). -/
def countLoop : List Nat → List Nat → Panicky (List Nat)
  | bl, [] => .ok bl
  | bl, len :: ls =>
    match load bl len with
    | .panic => .panic
    | .ok c =>
      match store bl len (c + 1) with
      | .panic => .panic
      | .ok bl' => countLoop bl' ls

/-- `for bits in 1..max_length + 1 { code = (code + bl_count[bits - 1]) << 1; next_code[bits] = code; }`
(src/prelude.rs:315-318, src/decoder.rs:1784-1787), `n` iterations starting at `bits`.  The sum is
overflow-checked, the shift by one drops the top bit. -/
def nextLoop (bl : List Nat) : Nat → Nat → Nat → List Nat → Panicky (List Nat)
  | 0, _, _, next => .ok next
  | n + 1, bits, code, next =>
    match load bl (bits - 1) with
    | .panic => .panic
    | .ok c =>
      if code + c < usizeCard then
        match store next bits (((code + c) * 2) % usizeCard) with
        | .panic => .panic
        | .ok next' => nextLoop bl n (bits + 1) (((code + c) * 2) % usizeCard) next'
      else .panic

/-- The common first part of `make_huffman_decoder` (src/prelude.rs:304-318) and
`make_huffman_codes` (src/decoder.rs:1773-1787): the array `next_code`. -/
def nextCodes (lengths : List Nat) : Panicky (List Nat) :=
  match maxLength lengths with
  | .panic => .panic
  | .ok maxL =>
    match countLoop (List.replicate (maxL + 1) 0) lengths with
    | .panic => .panic
    | .ok bl =>
      match store bl 0 0 with
      | .panic => .panic
      | .ok bl0 => nextLoop bl0 maxL 1 0 (List.replicate (maxL + 1) 0)

/-- `bit_range` (src/prelude.rs:453-461, src/decoder.rs:1810-1818): the low `nbits` bits, most
significant first, as bytes 0/1.  `1 << r` panics for `r ≥ 64`. -/
def bitRange : Nat → Nat → Panicky (List UInt8)
  | 0, _ => .ok []
  | r + 1, value =>
    if r < 64 then
      match bitRange r value with
      | .panic => .panic
      | .ok bs => .ok ((if value.testBit r then 1 else 0) :: bs)
    else .panic

/-- `HuffmanNode` (src/prelude.rs:343-350). -/
inductive Node where
  | empty
  | leaf (v : Nat)
  | branch (c0 c1 : Node)
deriving DecidableEq, Repr

/-- `HuffmanNode::insert` (src/prelude.rs:364-396); `none` is the collision error, the diagnostics
printed on the way out are not modelled. -/
def Node.insert : Node → List UInt8 → Nat → Panicky (Option Node)
  | .empty, [], v => .ok (some (.leaf v))
  | .leaf _, [], _ => .ok none
  | .branch _ _, [], _ => .ok none
  | .leaf _, _ :: _, _ => .ok none
  | .empty, b :: bs, v =>
    if b = 0 then
      match Node.insert .empty bs v with
      | .ok (some c) => .ok (some (.branch c .empty))
      | .ok none => .ok none
      | .panic => .panic
    else if b = 1 then
      match Node.insert .empty bs v with
      | .ok (some c) => .ok (some (.branch .empty c))
      | .ok none => .ok none
      | .panic => .panic
    else .panic
  | .branch c0 c1, b :: bs, v =>
    if b = 0 then
      match Node.insert c0 bs v with
      | .ok (some c) => .ok (some (.branch c c1))
      | .ok none => .ok none
      | .panic => .panic
    else if b = 1 then
      match Node.insert c1 bs v with
      | .ok (some c) => .ok (some (.branch c0 c))
      | .ok none => .ok none
      | .panic => .panic
    else .panic

/-- The insertion loop of `make_huffman_decoder` (src/prelude.rs:322-327); `n.try_into::<u16>().unwrap()`
panics for `n ≥ 65536`. -/
def driverLoop : Node → Nat → List Nat → List Nat → Panicky (Option Node)
  | t, _, _, [] => .ok (some t)
  | t, n, next, len :: ls =>
    if len ≠ 0 then
      match load next len with
      | .panic => .panic
      | .ok code =>
        match bitRange len code with
        | .panic => .panic
        | .ok bits =>
          if n < 65536 then
            match Node.insert t bits n with
            | .panic => .panic
            | .ok none => .ok none
            | .ok (some t') =>
              if code + 1 < usizeCard then
                match store next len (code + 1) with
                | .panic => .panic
                | .ok next' => driverLoop t' (n + 1) next' ls
              else .panic
          else .panic
    else driverLoop t (n + 1) next ls

/-- `make_huffman_decoder` (src/prelude.rs:301-330): the tree captured by the returned closure;
`none` is `Err(UnsoundOperation("huffman code collision"))`. -/
def makeDecoder (lengths : List Nat) : Panicky (Option Node) :=
  match nextCodes lengths with
  | .panic => .panic
  | .ok next => driverLoop .empty 0 next lengths

/-- Outcome of `parse_one`. -/
inductive PResult where
  | ok (v : Nat) (rest : List UInt8)
  | overrun
  | descent
  | panic
deriving DecidableEq, Repr

/-- `HuffmanDriver::parse_one` (src/prelude.rs:433-449) with `follow` (398-404).  The parser is
abstracted to the list of bytes `read_byte` will still deliver (in bit mode: bits).  `children[b]`
panics for `b ≥ 2`. -/
def Node.parseOne : Node → List UInt8 → PResult
  | .leaf v, s => .ok v s
  | _, [] => .overrun
  | .empty, _ :: _ => .descent
  | .branch c0 c1, b :: s =>
    if b = 0 then c0.parseOne s else if b = 1 then c1.parseOne s else .panic

/-- The code-collecting loop of `make_huffman_codes` (src/decoder.rs:1791-1805).  An alternative
`Map(Tuple[Byte{b} ..], _ -> n)` is recorded as its bit list and `n`. -/
def codesLoop : Nat → List Nat → List Nat → Panicky (List (List UInt8 × Nat))
  | _, _, [] => .ok []
  | n, next, len :: ls =>
    if len ≠ 0 then
      match load next len with
      | .panic => .panic
      | .ok code =>
        match bitRange len code with
        | .panic => .panic
        | .ok bits =>
          if n < 65536 then
            if code + 1 < usizeCard then
              match store next len (code + 1) with
              | .panic => .panic
              | .ok next' =>
                match codesLoop (n + 1) next' ls with
                | .panic => .panic
                | .ok rest => .ok ((bits, n) :: rest)
            else .panic
          else .panic
    else codesLoop (n + 1) next ls

/-- `make_huffman_codes` (src/decoder.rs:1772-1808), as the list of alternatives of the union. -/
def makeCodes (lengths : List Nat) : Panicky (List (List UInt8 × Nat)) :=
  match nextCodes lengths with
  | .panic => .panic
  | .ok next => codesLoop 0 next lengths

/-- Re-ordering of lengths by code values (src/prelude.rs:272-279, src/decoder.rs:1606-1613), loop from
index `i` (`ls` are the remaining lengths). -/
def permuteLoop (values : List Nat) : Nat → List Nat → List Nat → Panicky (List Nat)
  | _, acc, [] => .ok acc
  | i, acc, len :: ls =>
    match load values i with
    | .panic => .panic
    | .ok v =>
      match store acc v len with
      | .panic => .panic
      | .ok acc' => permuteLoop values (i + 1) acc' ls

/-- Re-ordering of lengths by code values (src/prelude.rs:270-280, src/decoder.rs:1604-1614). -/
def reorder (lengths : List Nat) : Option (List Nat) → Panicky (List Nat)
  | none => .ok lengths
  | some values => permuteLoop values 0 (List.replicate values.length 0) lengths

/-- `parse_huffman` (src/prelude.rs:261-282). -/
def parseHuffman (lengths : List Nat) (values : Option (List Nat)) : Panicky (Option Node) :=
  match reorder lengths values with
  | .panic => .panic
  | .ok ls => makeDecoder ls

/-- The `DynFormat::Huffman` arm of the interpreter up to the union (src/decoder.rs:1601-1615). -/
def interpHuffman (lengths : List Nat) (values : Option (List Nat)) :
    Panicky (List (List UInt8 × Nat)) :=
  match reorder lengths values with
  | .panic => .panic
  | .ok ls => makeCodes ls

end Huffman
end Doodle
