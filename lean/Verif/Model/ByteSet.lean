import Verif.Model.Panicky

/-!
Model of `ByteSet` (/repo/src/byte_set.rs and /repo/src/byte_set/pretty_print.rs).

A `u64` is a `BitVec 64`; a `u8` is a `UInt8`.
-/

namespace Doodle

/-- `struct ByteSet { bits: [u64; 4] }` (src/byte_set.rs:8-13).  The array is unrolled into four fields. -/
structure ByteSet where
  q0 : BitVec 64
  q1 : BitVec 64
  q2 : BitVec 64
  q3 : BitVec 64
deriving DecidableEq, Repr, Inhabited

namespace ByteSet

/-- `u64::trailing_zeros`: index of the lowest set bit, 64 if there is none (std). -/
def trailingZeros (x : BitVec 64) : Nat :=
  match (List.range 64).find? (fun i => x.getLsbD i) with
  | some i => i
  | none => 64

/-- `u64::leading_zeros`: number of zero bits above the highest set bit, 64 if there is none (std). -/
def leadingZeros (x : BitVec 64) : Nat :=
  match (List.range 64).find? (fun i => x.getLsbD (63 - i)) with
  | some i => i
  | none => 64

/-- `u64::count_ones` (std). -/
def countOnes (x : BitVec 64) : Nat :=
  ((List.range 64).filter (fun i => x.getLsbD i)).length

/-- `min_set_bit` (src/byte_set.rs:15-20). -/
def minSetBit (x : BitVec 64) : Option UInt8 :=
  match trailingZeros x with
  | 64 => none
  | i => some (UInt8.ofNat i)

/-- `max_set_bit` (src/byte_set.rs:22-27). -/
def maxSetBit (x : BitVec 64) : Option UInt8 :=
  match leadingZeros x with
  | 64 => none
  | i => some (UInt8.ofNat (63 - i))

/-- `bit_to_quad` (src/byte_set.rs:29-38). `overflowing_shl` reports overflow iff the shift is ≥ 64. -/
def bitToQuad (bit offset : UInt8) : BitVec 64 :=
  if offset > bit then 0#64
  else
    let sh := bit.toNat - offset.toNat
    if sh < 64 then 1#64 <<< sh else 0#64

/-- `ByteSet::from_bits` (src/byte_set.rs:51-53). -/
def fromBits (a b c d : BitVec 64) : ByteSet := ⟨a, b, c, d⟩

/-- `ByteSet::union` (src/byte_set.rs:56-63). -/
def union (s t : ByteSet) : ByteSet :=
  fromBits (s.q0 ||| t.q0) (s.q1 ||| t.q1) (s.q2 ||| t.q2) (s.q3 ||| t.q3)

/-- `ByteSet::empty` / `ByteSet::new` (src/byte_set.rs:41-43, 69-71). -/
def empty : ByteSet := fromBits 0 0 0 0

/-- `ByteSet::singleton` (src/byte_set.rs:73-81). -/
def singleton (bit : UInt8) : ByteSet :=
  ⟨bitToQuad bit 0, bitToQuad bit 0x40, bitToQuad bit 0x80, bitToQuad bit 0xc0⟩

/-- `ByteSet::full` (src/byte_set.rs:83-85). -/
def full : ByteSet :=
  fromBits (BitVec.allOnes 64) (BitVec.allOnes 64) (BitVec.allOnes 64) (BitVec.allOnes 64)

/-- `ByteSet::get_bit_with` (src/byte_set.rs:123-130). -/
def getBitWith {α : Type} (s : ByteSet) (b : UInt8) (f : BitVec 64 → UInt8 → α) : α :=
  if b ≤ 63 then f s.q0 b
  else if b ≤ 127 then f s.q1 (b - 64)
  else if b ≤ 191 then f s.q2 (b - 128)
  else f s.q3 (b - 192)

/-- `ByteSet::set_bit_with` (src/byte_set.rs:132-139); the mutated word is returned. -/
def setBitWith (s : ByteSet) (b : UInt8) (f : BitVec 64 → UInt8 → BitVec 64) : ByteSet :=
  if b ≤ 63 then { s with q0 := f s.q0 b }
  else if b ≤ 127 then { s with q1 := f s.q1 (b - 64) }
  else if b ≤ 191 then { s with q2 := f s.q2 (b - 128) }
  else { s with q3 := f s.q3 (b - 192) }

/-- `ByteSet::map_bits` (src/byte_set.rs:141-148). -/
def mapBits (s : ByteSet) (f : BitVec 64 → BitVec 64) : ByteSet :=
  fromBits (f s.q0) (f s.q1) (f s.q2) (f s.q3)

/-- `ByteSet::zip_bits_with` (src/byte_set.rs:150-157). -/
def zipBitsWith (s t : ByteSet) (f : BitVec 64 → BitVec 64 → BitVec 64) : ByteSet :=
  fromBits (f s.q0 t.q0) (f s.q1 t.q1) (f s.q2 t.q2) (f s.q3 t.q3)

/-- `ByteSet::len` (src/byte_set.rs:159-164). -/
def len (s : ByteSet) : Nat :=
  countOnes s.q0 + countOnes s.q1 + countOnes s.q2 + countOnes s.q3

/-- `ByteSet::is_empty` (src/byte_set.rs:166-168). -/
def isEmpty (s : ByteSet) : Bool := s == empty

/-- `ByteSet::is_full` (src/byte_set.rs:170-172). -/
def isFull (s : ByteSet) : Bool := s == full

/-- `ByteSet::insert` (src/byte_set.rs:174-178). -/
def insert (s : ByteSet) (b : UInt8) : ByteSet :=
  s.setBitWith b (fun bits i => bits ||| (1#64 <<< i.toNat))

/-- `ByteSet::remove` (src/byte_set.rs:181-185). -/
def remove (s : ByteSet) (b : UInt8) : ByteSet :=
  s.setBitWith b (fun bits i => bits &&& ~~~ (1#64 <<< i.toNat))

/-- `ByteSet::contains` (src/byte_set.rs:187-189). -/
def contains (s : ByteSet) (b : UInt8) : Bool :=
  s.getBitWith b (fun bits i => (bits &&& (1#64 <<< i.toNat)) != 0#64)

/-- `ByteSet::complement` (src/byte_set.rs:191-193). -/
def complement (s : ByteSet) : ByteSet := s.mapBits (fun bits => ~~~ bits)

/-- `ByteSet::difference` (src/byte_set.rs:195-197). -/
def difference (s t : ByteSet) : ByteSet := s.zipBitsWith t (fun b0 b1 => b0 &&& ~~~ b1)

/-- `ByteSet::intersection` (src/byte_set.rs:199-206). -/
def intersection (s t : ByteSet) : ByteSet :=
  fromBits (s.q0 &&& t.q0) (s.q1 &&& t.q1) (s.q2 &&& t.q2) (s.q3 &&& t.q3)

/-- `ByteSet::is_disjoint` (src/byte_set.rs:208-210). -/
def isDisjoint (s t : ByteSet) : Bool := (intersection s t).isEmpty

/-- The iterator `0..=255u8`. -/
def allBytes : List UInt8 := (List.range 256).map UInt8.ofNat

/-- `ByteSet::iter` (src/byte_set.rs:87-89). -/
def iter (s : ByteSet) : List UInt8 := allBytes.filter (fun b => s.contains b)

/-- `ByteSet::min_elem` (src/byte_set.rs:91-105). -/
def minElem (s : ByteSet) : Option UInt8 :=
  match minSetBit s.q0 with
  | some i => some i
  | none =>
  match minSetBit s.q1 with
  | some i => some (0x40 + i)
  | none =>
  match minSetBit s.q2 with
  | some i => some (0x80 + i)
  | none =>
  match minSetBit s.q3 with
  | some i => some (0xc0 + i)
  | none => none

/-- `ByteSet::max_elem` (src/byte_set.rs:107-121), including the negations of words 2, 1 and 0
that the source contains. -/
def maxElem (s : ByteSet) : Option UInt8 :=
  match maxSetBit s.q3 with
  | some i => some (0xc0 + i)
  | none =>
  match maxSetBit (~~~ s.q2) with
  | some i => some (0x80 + i)
  | none =>
  match maxSetBit (~~~ s.q1) with
  | some i => some (0x40 + i)
  | none =>
  match maxSetBit (~~~ s.q0) with
  | some i => some i
  | none => none

/-- `From<&[u8]>`, `From<[u8; LEN]>` and `FromIterator<u8>` (src/byte_set.rs:213-231, 276-284):
insert the bytes one by one into the empty set. -/
def fromIter (bytes : List UInt8) : ByteSet := bytes.foldl insert empty

/-- The iterator `lo..=hi` over `u8`. -/
def rangeInclusive (lo hi : UInt8) : List UInt8 :=
  (List.range' lo.toNat (hi.toNat + 1 - lo.toNat)).map UInt8.ofNat

/-- `From<RangeInclusive<u8>>` (src/byte_set.rs:243-273). -/
def fromRangeInclusive (lo hi : UInt8) : ByteSet :=
  if lo = hi then fromIter [lo]
  else if lo > hi then empty
  else
    let startIx := lo >>> 6
    let endIx := hi >>> 6
    if startIx = endIx then
      let mask := (rangeInclusive lo hi).foldl (fun m i => m ||| (1#64 <<< (i &&& 63).toNat)) 0#64
      if startIx = 0 then ⟨mask, 0, 0, 0⟩
      else if startIx = 1 then ⟨0, mask, 0, 0⟩
      else if startIx = 2 then ⟨0, 0, mask, 0⟩
      else ⟨0, 0, 0, mask⟩
    else fromIter (rangeInclusive lo hi)

/-- `From<Range<u8>>` (src/byte_set.rs:233-241). -/
def fromRange (start stop : UInt8) : ByteSet :=
  if stop ≤ start then empty else fromRangeInclusive start (stop - 1)

/-- What `Serialize` and `Debug` emit: a tag and the listed bytes
(src/byte_set.rs:286-295, 313-338).  `false` = "includes", `true` = "excludes". -/
def serialize (s : ByteSet) : Bool × List UInt8 :=
  if s.len < 128 then (false, s.iter) else (true, s.complement.iter)

/-! ### src/byte_set/pretty_print.rs -/

/-- `ByteSet::bounds` (src/byte_set/pretty_print.rs:22-28). -/
def bounds (s : ByteSet) : Panicky (Option (UInt8 × UInt8)) :=
  match s.minElem, s.maxElem with
  | some lo, some hi => .ok (some (lo, hi))
  | none, none => .ok none
  | _, _ => .panic

/-- `ByteSet::span` (src/byte_set/pretty_print.rs:31-36); the `u32` subtraction is overflow-checked. -/
def span (s : ByteSet) : Panicky Nat :=
  match s.minElem, s.maxElem with
  | some lo, some hi => if lo.toNat ≤ hi.toNat then .ok (hi.toNat - lo.toNat + 1) else .panic
  | _, _ => .ok 0

/-- `ByteSet::contains_range` (src/byte_set/pretty_print.rs:38-42). -/
def containsRange (s : ByteSet) (lo hi : UInt8) : Bool :=
  let r := fromRangeInclusive lo hi
  (s.intersection r).len == r.len

/-- `ByteSet::is_contiguous` (src/byte_set/pretty_print.rs:44-46). -/
def isContiguous (s : ByteSet) : Panicky Bool :=
  match s.span with
  | .ok n => .ok (n == s.len)
  | .panic => .panic

/-- First loop of `find_enclosing_range` (src/byte_set/pretty_print.rs:53-55), on `lo` as a number. -/
def extendDown (s : ByteSet) : Nat → Nat
  | 0 => 0
  | n + 1 => if s.contains (UInt8.ofNat n) then extendDown s n else n + 1

/-- Second loop of `find_enclosing_range` (src/byte_set/pretty_print.rs:57-59): `k` counts the
bytes above `255 - k`. -/
def extendUp (s : ByteSet) : Nat → Nat
  | 0 => 255
  | k + 1 => if s.contains (UInt8.ofNat (255 - k)) then extendUp s k else 255 - (k + 1)

/-- `ByteSet::find_enclosing_range` (src/byte_set/pretty_print.rs:48-65). -/
def findEnclosingRange (s : ByteSet) (byte : UInt8) : Option (UInt8 × UInt8) :=
  if s.contains byte then
    some (UInt8.ofNat (extendDown s byte.toNat), UInt8.ofNat (extendUp s (255 - byte.toNat)))
  else none

end ByteSet
end Doodle
