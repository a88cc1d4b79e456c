import Verif.Model.Panicky

/-!
Model of `Bounds` (/repo/src/bounds.rs).

`usize` is 64 bits wide and is modelled by `Nat`; every operation that could leave the range
`[0, 2^64)` is guarded exactly where the source guards it (`checked_*`, `saturating_sub`) or wraps
exactly where the source wraps (`checked_shl` drops bits shifted out of the word).
-/

namespace Doodle

/-- number of `usize` values -/
def usizeCard : Nat := 2 ^ 64

/-- number of `u32` values -/
def u32Card : Nat := 2 ^ 32

/-- `usize::checked_add` (std). -/
def checkedAdd (a b : Nat) : Option Nat := if a + b < usizeCard then some (a + b) else none
/-- `usize::checked_mul` (std). -/
def checkedMul (a b : Nat) : Option Nat := if a * b < usizeCard then some (a * b) else none
/-- `usize::checked_div` (std). -/
def checkedDiv (a b : Nat) : Option Nat := if b = 0 then none else some (a / b)
/-- `usize::checked_rem` (std). -/
def checkedRem (a b : Nat) : Option Nat := if b = 0 then none else some (a % b)
/-- `usize::checked_shl(u32)` (std): `None` iff the shift is at least the word size, otherwise the
shifted word (bits leaving the word are lost). -/
def checkedShl (a s : Nat) : Option Nat := if s < 64 then some ((a <<< s) % usizeCard) else none
/-- `usize::checked_shr(u32)` (std). -/
def checkedShr (a s : Nat) : Option Nat := if s < 64 then some (a >>> s) else none
/-- `u32::try_from(usize).ok()` (std). -/
def tryU32 (a : Nat) : Option Nat := if a < u32Card then some a else none

/-- `sig_bits` (src/bounds.rs:11-16); `ilog2` is `Nat.log2`. -/
def sigBits (x : Nat) : Nat :=
  match x with
  | 0 => 0
  | x => x.log2 + 1

/-- `mask` (src/bounds.rs:485-491). Panics if `x ≥ 2^63` because `checked_shl(64)` is `None`. -/
def bmask (x : Nat) : Panicky Nat :=
  if x ≠ 0 then
    match checkedShl 1 (x.log2 + 1) with
    | some y => .ok (y - 1)
    | none => .panic
  else .ok 0

/-- `blend_bits` (src/bounds.rs:481-483). -/
def blendBits (k1 k2 m1 m2 : Nat) : Nat :=
  ((k1 &&& k2) ||| (m1 &&& m2)) ||| (k1 &&& m2) ||| (m1 &&& k2)

/-- `struct Bounds { min, max }` (src/bounds.rs:53-56). -/
structure Bounds where
  min : Nat
  max : Option Nat
deriving DecidableEq, Repr, Inhabited

namespace Bounds

/-- `Bounds::new` (src/bounds.rs:121-126). -/
def new (min max : Nat) : Bounds := ⟨min, some max⟩
/-- `Bounds::exact` (src/bounds.rs:196-201). -/
def exact (n : Nat) : Bounds := ⟨n, some n⟩
/-- `Bounds::at_most` (src/bounds.rs:204-208). -/
def atMost (n : Nat) : Bounds := ⟨0, some n⟩
/-- `Bounds::at_least` (src/bounds.rs:211-213). -/
def atLeast (n : Nat) : Bounds := ⟨n, none⟩
/-- `Bounds::any` (src/bounds.rs:216-218). -/
def any : Bounds := ⟨0, none⟩

/-- `Bounds::as_exact` (src/bounds.rs:221-226). -/
def asExact (b : Bounds) : Option Nat :=
  match b.max with
  | some n => if n = b.min then some n else none
  | none => none

/-- `Bounds::contains` (src/bounds.rs:229-235). -/
def contains (b : Bounds) (n : Nat) : Bool :=
  decide (n ≥ b.min) && match b.max with
    | some m => decide (n ≤ m)
    | none => true

/-- `Bounds::rem` (src/bounds.rs:100-117). -/
def rem (lhs rhs : Bounds) : Panicky Bounds :=
  match rhs.asExact with
  | some y =>
    match lhs.asExact with
    | some x =>
      match checkedRem x y with
      | some r => .ok (exact r)
      | none => .panic
    | none => .ok any
  | none => .ok any

/-- `Bounds::significant_bits` (src/bounds.rs:182-187). -/
def significantBits (b : Bounds) : Bounds := ⟨sigBits b.min, b.max.map sigBits⟩

/-- `Bounds::nbits_exact` (src/bounds.rs:191-193). -/
def nbitsExact (b : Bounds) : Option Nat := b.significantBits.asExact

/-- `Bounds::bitwise_bounds` (src/bounds.rs:139-178). The shifts `1 << set_bits` and `1 << mbits` are
by less than 64 whenever they are reached (both are positive and their sum is at most 64), so they
are plain powers of two. -/
def bitwiseBounds (b : Bounds) : Panicky (Nat × Bounds) :=
  match b.max with
  | none => .ok (0, b)
  | some max =>
    if b.min = max then .ok (b.min, exact 0)
    else
      match b.nbitsExact with
      | none => .ok (0, b)
      | some nbits =>
        let mbits := sigBits (max ^^^ b.min)
        if nbits < mbits then .panic
        else
          let setBits := nbits - mbits
          if setBits = 0 then .ok (0, b)
          else
            let hiMask := ((1 <<< setBits) - 1) <<< mbits
            let loMask := (1 <<< mbits) - 1
            .ok (hiMask &&& max, new (b.min &&& loMask) (max &&& loMask))

/-- `Bounds::union` (src/bounds.rs:239-247). -/
def union (lhs rhs : Bounds) : Bounds :=
  ⟨Nat.min lhs.min rhs.min,
   match lhs.max, rhs.max with
   | some m1, some m2 => some (Nat.max m1 m2)
   | _, _ => none⟩

/-- `Bounds::clamp` (src/bounds.rs:259-270); the `assert!(min <= max)` panics. -/
def clamp (b : Bounds) (min max : Nat) : Panicky (Option Bounds) :=
  if min ≤ max then
    let min := Nat.max min b.min
    let max := match b.max with
      | some m => Nat.min m max
      | none => max
    if min > max then .ok none else .ok (some ⟨min, some max⟩)
  else .panic

/-- `usize::div_ceil(8)` (std). -/
def divCeil8 (n : Nat) : Nat := if n % 8 = 0 then n / 8 else n / 8 + 1

/-- `Bounds::bits_to_bytes` (src/bounds.rs:274-279). -/
def bitsToBytes (b : Bounds) : Bounds := ⟨divCeil8 b.min, b.max.map divCeil8⟩

/-- `Bounds::best_mask` (src/bounds.rs:286-295). -/
def bestMask (b : Bounds) (m : Nat) : Panicky (Nat × Nat) :=
  if b.contains m then .ok (m, m)
  else
    match b.max with
    | some n =>
      match bmask n with
      | .ok x => .ok (x, m)
      | .panic => .panic
    | none => .ok (m, m)

/-- `CheckedAdd for Bounds` (src/bounds.rs:314-324). -/
def checkedAdd (a b : Bounds) : Option Bounds :=
  match Doodle.checkedAdd a.min b.min with
  | none => none
  | some min =>
    some ⟨min, match a.max, b.max with
      | some m1, some m2 => Doodle.checkedAdd m1 m2
      | _, _ => none⟩

/-- `Add for Bounds` (src/bounds.rs:326-332). -/
def add (a b : Bounds) : Bounds := (checkedAdd a b).getD any

/-- `Sub for Bounds` (src/bounds.rs:334-346); `saturating_sub` is truncated subtraction. -/
def sub (a b : Bounds) : Bounds :=
  ⟨match b.max with
    | some m2 => a.min - m2
    | none => 0,
   a.max.map (fun m1 => m1 - b.min)⟩

/-- `CheckedMul for Bounds` (src/bounds.rs:348-358). -/
def checkedMul (a b : Bounds) : Option Bounds :=
  match Doodle.checkedMul a.min b.min with
  | none => none
  | some min =>
    some ⟨min, match a.max, b.max with
      | some m1, some m2 => Doodle.checkedMul m1 m2
      | _, _ => none⟩

/-- `Mul for Bounds` (src/bounds.rs:360-366). -/
def mul (a b : Bounds) : Bounds := (checkedMul a b).getD any

/-- `CheckedDiv for Bounds` (src/bounds.rs:368-378). -/
def checkedDiv (a b : Bounds) : Option Bounds :=
  match (match b.max with
    | some m2 => Doodle.checkedDiv a.min m2
    | none => some 0) with
  | none => none
  | some min => some ⟨min, a.max.map (fun m1 => m1 / Nat.max b.min 1)⟩

/-- `Div for Bounds` (src/bounds.rs:380-386). -/
def div (a b : Bounds) : Bounds := (checkedDiv a b).getD any

/-- `Bounds::checked_shl` (src/bounds.rs:389-401). -/
def checkedShl (a b : Bounds) : Option Bounds :=
  match tryU32 b.min with
  | none => none
  | some min2 =>
    match Doodle.checkedShl a.min min2 with
    | none => none
    | some min =>
      match a.max, b.max with
      | some m1, some m2 =>
        match tryU32 m2 with
        | none => none
        | some max2 => some ⟨min, Doodle.checkedShl m1 max2⟩
      | _, _ => some ⟨min, none⟩

/-- `Bounds::checked_shr` (src/bounds.rs:403-414). -/
def checkedShr (a b : Bounds) : Option Bounds :=
  match (match b.max with
    | some m2 =>
      match tryU32 m2 with
      | none => none
      | some m => Doodle.checkedShr a.min m
    | none => some 0) with
  | none => none
  | some min =>
    match tryU32 b.min with
    | none => none
    | some min0 =>
      some ⟨min, match a.max with
        | some m1 => Doodle.checkedShr m1 min0
        | none => none⟩

/-- `Shl for Bounds` (src/bounds.rs:417-423). -/
def shl (a b : Bounds) : Bounds := (checkedShl a b).getD any

/-- `Shr for Bounds` (src/bounds.rs:425-431). -/
def shr (a b : Bounds) : Bounds := (checkedShr a b).getD any

/-- The `max` field of `BitOr` (src/bounds.rs:441-444). -/
def bitOrMax (k1 k2 : Nat) (loA loB : Bounds) : Panicky (Option Nat) :=
  match loA.max, loB.max with
  | some m1, some m2 =>
    match bmask m1, bmask m2 with
    | .ok x1, .ok x2 => .ok (some ((k1 ||| k2) ||| (x1 ||| x2)))
    | _, _ => .panic
  | _, _ => .ok none

/-- `BitOr for Bounds` (src/bounds.rs:433-447). -/
def bitOr (a b : Bounds) : Panicky Bounds :=
  match a.bitwiseBounds, b.bitwiseBounds with
  | .ok (k1, loA), .ok (k2, loB) =>
    match bitOrMax k1 k2 loA loB with
    | .ok max => .ok ⟨Nat.max a.min b.min, max⟩
    | .panic => .panic
  | _, _ => .panic

/-- The `max` field of `BitAnd` (src/bounds.rs:457-473). -/
def bitAndMax (k1 k2 : Nat) (loA loB : Bounds) : Panicky (Option Nat) :=
  match loA.max, loB.max with
  | some m1, some m2 =>
    if loA.min = m1 then
      if loB.min = m2 then .ok (some (blendBits k1 k2 m1 m2))
      else
        match loB.bestMask m1 with
        | .ok (x2, m) => .ok (some (blendBits k1 k2 m x2))
        | .panic => .panic
    else
      if loB.min = m2 then
        match loA.bestMask m2 with
        | .ok (x1, m) => .ok (some (blendBits k1 k2 x1 m))
        | .panic => .panic
      else
        match bmask m1, bmask m2 with
        | .ok x1, .ok x2 => .ok (some (blendBits k1 k2 x1 x2))
        | _, _ => .panic
  | _, _ => .ok none

/-- `BitAnd for Bounds` (src/bounds.rs:449-476). -/
def bitAnd (a b : Bounds) : Panicky Bounds :=
  match a.bitwiseBounds, b.bitwiseBounds with
  | .ok (k1, loA), .ok (k2, loB) =>
    match bitAndMax k1 k2 loA loB with
    | .ok max => .ok ⟨k1 &&& k2, max⟩
    | .panic => .panic
  | _, _ => .panic

end Bounds
end Doodle
