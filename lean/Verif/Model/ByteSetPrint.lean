import Verif.Model.ByteSet

/-!
Model of the printing of byte sets (/repo/src/byte_set/pretty_print.rs).

The printed text is a list of pieces, joined by `" ∪ "`; `Piece.text` is what is written for a piece.  The flag `oc` says
whether the program was built with overflow checks (a debug build); without them the arithmetic wraps.
-/

namespace Doodle
namespace ByteSet

/-- What is written (src/byte_set/pretty_print.rs:93-104, 125, 143, 156, 165-191): a name, nothing, one byte, all but one byte,
the listed bytes, all but the listed bytes, a range. -/
inductive Piece
  | name (s : String)
  | none
  | one (b : UInt8)
  | butOne (b : UInt8)
  | list (bs : List UInt8)
  | butList (bs : List UInt8)
  | range (lo hi : UInt8)
deriving DecidableEq, Repr, Inhabited

/-- the listed bytes, with commas (src/byte_set/pretty_print.rs:170-174, 181-185) -/
def commas (bs : List UInt8) : String := ", ".intercalate (bs.map fun b => toString b.toNat)

/-- the text of a piece (src/byte_set/pretty_print.rs:93-104, 125, 143, 156, 165-191) -/
def Piece.text : Piece → String
  | .name s => s
  | .none => "∅"
  | .one b => s!"[= {b.toNat}]"
  | .butOne b => s!"[!= {b.toNat}]"
  | .list bs => "{" ++ commas bs ++ "}"
  | .butList bs => "∁({" ++ commas bs ++ "})"
  | .range lo hi => s!"⟦{lo.toNat},{hi.toNat}⟧"

/-- `VALID_ASCII` (src/helper.rs:1860-1861) -/
def asciiSet : ByteSet := fromBits (BitVec.allOnes 64) (BitVec.allOnes 64) 0 0

/-- `ASCII_CHAR_STRICT` (src/helper.rs:1922-1935) -/
def asciiStrictSet : ByteSet :=
  fromBits (0xffffffff00000000#64 ||| (1#64 <<< 10) ||| (1#64 <<< 13) ||| (1#64 <<< 9)) 0xffffffffffffffff#64 0 0

/-- `ASCII_HEX_LOWER` (src/helper.rs:1873-1877) -/
def hexLower : List UInt8 := [48, 49, 50, 51, 52, 53, 54, 55, 56, 57, 97, 98, 99, 100, 101, 102]

/-- `ASCII_HEX_UPPER` (src/helper.rs:1879-1883) -/
def hexUpper : List UInt8 := [48, 49, 50, 51, 52, 53, 54, 55, 56, 57, 65, 66, 67, 68, 69, 70]

/-- `ASCII_HEX_ANY` (src/helper.rs:1885-1889) -/
def hexAny : List UInt8 := [48, 49, 50, 51, 52, 53, 54, 55, 56, 57, 65, 66, 67, 68, 69, 70, 97, 98, 99, 100, 101, 102]

/-- `ByteSet::is_equiv` and `ByteSet::as_token` (src/byte_set/pretty_print.rs:86-105); decimal and octal digits are
src/helper.rs:1863-1869 -/
def asToken (s : ByteSet) : Option String :=
  if s.isFull then some "U8"
  else if s = asciiSet then some "ASCII"
  else if s = asciiStrictSet then some "ASCII.Strict"
  else if s = fromRangeInclusive 48 57 then some "ASCII.Decimal"
  else if s = fromIter hexAny then some "ASCII.Hex"
  else if s = fromIter hexLower then some "ASCII.HexLower"
  else if s = fromIter hexUpper then some "ASCII.HexUpper"
  else if s = fromRangeInclusive 48 55 then some "ASCII.Octal"
  else none

/-- `__str_raw` (src/byte_set/pretty_print.rs:162-193) -/
def rawPiece (s : ByteSet) : Panicky Piece :=
  let n := s.len
  if n = 0 then .ok .none
  else if n = 1 then
    match s.minElem with
    | some b => .ok (.one b)
    | none => .panic
  else if n ≤ 127 then .ok (.list s.iter)
  else if n ≤ 254 then .ok (.butList s.complement.iter)
  else if n = 255 then
    match s.complement.minElem with
    | some b => .ok (.butOne b)
    | none => .panic
  else if n = 256 then .ok (.name "U8")
  else .panic

/-- `ByteSet::span` with or without overflow checks (src/byte_set/pretty_print.rs:30-36) -/
def spanWith (oc : Bool) (s : ByteSet) : Panicky Nat :=
  match s.minElem, s.maxElem with
  | some lo, some hi =>
    if lo.toNat ≤ hi.toNat then .ok (hi.toNat - lo.toNat + 1)
    else if oc then .panic
    else .ok ((hi.toNat + 2 ^ 32 - lo.toNat + 1) % 2 ^ 32)
  | _, _ => .ok 0

/-- `ByteSet::is_contiguous` (src/byte_set/pretty_print.rs:44-46) -/
def contiguousWith (oc : Bool) (s : ByteSet) : Panicky Bool := do
  let n ← s.spanWith oc
  .ok (n == s.len)

/-- `ByteSet::as_range_string` (src/byte_set/pretty_print.rs:119-132) -/
def asRange (oc : Bool) (s : ByteSet) : Panicky (Option Piece) := do
  let c ← s.contiguousWith oc
  if c then
    if s.len = 0 ∨ s.len = 1 ∨ s.len = 255 ∨ s.len = 256 then do
      let p ← s.rawPiece
      .ok (some p)
    else do
      let b ← s.bounds
      match b with
      | some (lo, hi) => .ok (some (.range lo hi))
      | none => .panic
  else .ok none

/-- The loop of `partition_ranges` (src/byte_set/pretty_print.rs:72-81): the runs as pairs of first byte and length.  Here they
are in the order in which they are found; `byRank` puts them into the order of the map.  The length is a number: as `u8` it
overflows only for the full set, which is contiguous and does not come here. -/
def runs : Nat → ByteSet → Panicky (List (UInt8 × Nat))
  | 0, s => match s.minElem with | some _ => .panic | none => .ok []
  | k + 1, s =>
    match s.minElem with
    | none => .ok []
    | some b =>
      match s.findEnclosingRange b with
      | none => .panic
      | some (lo, hi) => do
        let rest ← runs k (s.difference (fromRangeInclusive lo hi))
        .ok ((lo, hi.toNat - lo.toNat + 1) :: rest)

/-- The order of `RankSet` (src/byte_set/pretty_print.rs:12, 78): a map by length of sets of first bytes.  The runs are found
with increasing first bytes. -/
def byRank (rs : List (UInt8 × Nat)) : List (UInt8 × Nat) :=
  (List.range 256).flatMap fun n => rs.filter fun r => r.2 = n

/-- the bytes of a run, `lo..=lo + (rank - 1)` (src/byte_set/pretty_print.rs:147-150) -/
def runBytes (r : UInt8 × Nat) : List UInt8 := (List.range' r.1.toNat r.2).map UInt8.ofNat

/-- the ranges that are written on their own (src/byte_set/pretty_print.rs:141-144); `lo + rank - 1` is computed in `u8` from
left to right -/
def longPieces (oc : Bool) : List (UInt8 × Nat) → Panicky (List Piece)
  | [] => .ok []
  | (lo, n) :: rs =>
    if 4 ≤ n then
      if oc ∧ 256 ≤ lo.toNat + n then .panic
      else do
        let ps ← longPieces oc rs
        .ok (.range lo (lo + UInt8.ofNat n - 1) :: ps)
    else longPieces oc rs

/-- the bytes of the short runs (src/byte_set/pretty_print.rs:145-152) -/
def shortBytes (rs : List (UInt8 × Nat)) : ByteSet := fromIter ((rs.filter fun r => r.2 < 4).flatMap runBytes)

/-- `str_fallback` (src/byte_set/pretty_print.rs:134-160) with `partition_ranges` (src/byte_set/pretty_print.rs:67-84) -/
def fallback (oc : Bool) (s : ByteSet) : Panicky (List Piece) := do
  let c ← s.contiguousWith oc
  if c then .panic
  else do
    let rs ← runs 256 s
    let ps ← longPieces oc (byRank rs)
    let rest := shortBytes (byRank rs)
    if rest.isEmpty then .ok ps
    else do
      let p ← rest.rawPiece
      .ok (ps ++ [p])

/-- `ByteSet::to_best_string` (src/byte_set/pretty_print.rs:107-117) -/
def pieces (oc : Bool) (s : ByteSet) : Panicky (List Piece) :=
  match s.asToken with
  | some t => .ok [.name t]
  | none => do
    let r ← s.asRange oc
    match r with
    | some p => .ok [p]
    | none => s.fallback oc

/-- `Display` (src/byte_set/pretty_print.rs:196-200, 159) -/
def display (oc : Bool) (s : ByteSet) : Panicky String := do
  let ps ← s.pieces oc
  .ok (" ∪ ".intercalate (ps.map Piece.text))

end ByteSet
end Doodle
