import Verif.Model.Record

/-!
Model of the constructors of formats and expressions in /repo/src/helper.rs.  Functions that only wrap one constructor
are not repeated here; they are written as that constructor.
-/

namespace Doodle
namespace Helper

open Num (BitWidth)

/-- an integer literal of `w` bits; `n` is below `2^w` wherever the code uses it -/
def lit (w : BitWidth) (n : Nat) : Expr := .lit w (Fin.ofNat _ n)

/-! ### packed bit fields -/

/-- `enum BitFieldKind` (src/helper.rs:18-35) -/
inductive BitField where
  | flag (name : String)
  | bits (name : String) (width : Nat)
  | reserved (width : Nat) (checkZero : Bool)
deriving DecidableEq, Repr

/-- `BitFieldKind::bit_width` (src/helper.rs:38-44) -/
def BitField.width : BitField → Nat
  | .flag _ => 1
  | .bits _ w => w
  | .reserved w _ => w

/-- `BitFieldKind::field_name` (src/helper.rs:50-56) -/
def BitField.name : BitField → Option String
  | .flag l => some l
  | .bits l _ => some l
  | .reserved _ _ => none

/-- `BitFieldKind::is_flag` (src/helper.rs:46-48) -/
def BitField.isFlag : BitField → Bool
  | .flag _ => true
  | _ => false

/-- `BitFieldKind::check_zero` (src/helper.rs:58-63) -/
def BitField.checkZero : BitField → Bool
  | .reserved _ c => c
  | _ => false

/-- `mask_bits_u8`, `mask_bits_u16` (src/helper.rs:69-83, 88-102), for words of `w` bits; the width of the mask is a `u8` or
`u16`, so that `1 << nbits` overflows (a panic in a debug build) for a mask of the whole word. -/
def maskBits (w : BitWidth) (x : Expr) (high n : Nat) : Panicky Expr :=
  if n + high ≤ w.bits then
    if n < w.bits then
      let shift := w.bits - high - n
      let shifted := if shift = 0 then x else .arith .shr x (lit w shift)
      .ok (.arith .bitAnd shifted (lit w (2 ^ n - 1)))
    else .panic
  else .panic

/-- `is_nonzero_u8`, `is_nonzero_u16`, `is_nonzero_u32` (src/helper.rs:1096-1106) -/
def isNonzero (w : BitWidth) (e : Expr) : Expr := .intRel .gt e (lit w 0)

/-- the format of a named field: its bits, as a number or as a flag (src/helper.rs:135-142, 208-215) -/
def bitFieldFormat (w : BitWidth) (f : BitField) (high : Nat) : Panicky Format := do
  let raw ← maskBits w (.var "_packed_bits") high f.width
  .ok (.compute (if f.isFlag then isNonzero w raw else raw))

/-- the mask of a segment that must be zero (src/helper.rs:143-145, 216-218); both shifts overflow (a panic in a
debug build) when they move by the whole width -/
def zeroMask (w : BitWidth) (high n : Nat) : Panicky Nat :=
  if n < w.bits then
    if high + n ≤ w.bits ∧ 0 < high + n then .ok (((2 ^ n - 1) * 2 ^ (w.bits - (high + n))) % 2 ^ w.bits) else .panic
  else .panic

/-- the loop over the fields (src/helper.rs:126-147, 200-220): the formats of the named fields, and the mask of the
bits that are to be zero, which the code narrows (`&=`) for every such segment -/
def bitLoop (w : BitWidth) : List BitField → Nat → Nat → List (String × Format) →
    Panicky (List (String × Format) × Nat)
  | [], _, mask, acc => .ok (acc, mask)
  | f :: fs, high, mask, acc =>
    match f.name with
    | some name => do
      let g ← bitFieldFormat w f high
      bitLoop w fs (high + f.width) mask (acc ++ [(name, g)])
    | none =>
      if f.checkZero then do
        let z ← zeroMask w high f.width
        bitLoop w fs (high + f.width) (mask &&& z) acc
      else bitLoop w fs (high + f.width) mask acc

/-! ### integers -/

/-- `base::u8` (src/helper.rs:1814-1819) -/
def u8 : Format := .hint (.byte .full)

/-- `base::u16be` .. `base::u64le` (src/helper.rs:1784-1800, 1821-1828): a tuple of bytes, mapped to the integer. -/
def word (w : BitWidth) (be : Bool) : Format :=
  .hint (.map (.tuple (List.replicate (w.bits / 8) (.byte .full))) (.lambda "x" (.fromBytes w be (.var "x"))))

/-- the word of `w` bits in a packed field: `ANY_BYTE` or `base::u16be()` (src/helper.rs:160-162, 233-235) -/
def packedWord (w : BitWidth) : Format := if w = .b8 then .byte .full else word w true

/-- the packed word, checked against the mask of bits that are to be zero unless the mask is zero
(src/helper.rs:149-162, 222-235) -/
def packed (w : BitWidth) (mask : Nat) : Format :=
  if mask ≠ 0 then
    .where_ (packedWord w) (.lambda "packed" (.intRel .eq (.arith .bitAnd (.var "packed") (lit w mask)) (lit w 0))) false
  else packedWord w

/-- `bit_fields_u8`, `bit_fields_u16` (src/helper.rs:116-168, 190-241) for `w` of 8 or 16 bits; the check of the total
width is a debug assertion. -/
def bitFields (w : BitWidth) (fields : List BitField) : Panicky Format :=
  if (fields.map BitField.width).sum = w.bits then do
    let r ← bitLoop w fields 0 0 []
    .ok (Record.recordAuto (("_packed_bits", packed w r.2) :: r.1))
  else .panic

/-- `u4_pair` (src/helper.rs:173-185) -/
def u4Pair (hi lo : String) : Panicky Format := bitFields .b8 [.bits hi 4, .bits lo 4]

/-- `map_numeric` (src/helper.rs:2052-2055) -/
def mapNumeric (f : Format) (g : Num.Expr → Num.Expr) : Format :=
  .letFormat f "raw" (.compute (.numeric (g (.numVar "raw"))))

/-- `base::i8`, `base::i16be` .. `base::i64be` (src/helper.rs:1832-1852): the unsigned integer, cast bitwise. -/
def signedWord (w : BitWidth) : Format :=
  mapNumeric (if w = .b8 then u8 else word w true) fun v => .cast ⟨true, w⟩ true v

/-! ### bytes -/

/-- `is_byte` (src/helper.rs:638-640) -/
def isByte (b : UInt8) : Format := .byte (ByteSet.fromIter [b])

/-- `not_byte` (src/helper.rs:660-662) -/
def notByte (b : UInt8) : Format := .byte (ByteSet.fromIter [b]).complement

/-- `is_bytes` (src/helper.rs:665-667) -/
def isBytes (bs : List UInt8) : Format := .tuple (bs.map isByte)

/-- `byte_seq` (src/helper.rs:670-672) -/
def byteSeq (bs : List UInt8) : Format := .sequence (bs.map isByte)

/-- `repeat_byte` (src/helper.rs:655-657) -/
def repeatByte (count : Nat) (b : UInt8) : Format := .repeatCount (lit .b32 count) (isByte b)

/-- `asciiz_string` (src/helper.rs:1963-1969) -/
def asciizString : Format :=
  .hint (.letFormat (.repeat_ (notByte 0)) "chars" (.monadSeq (isByte 0) (.compute (.var "chars"))))

/-! ### conditions -/

/-- `is_within` (src/helper.rs:1624-1632) -/
def isWithin (x : Expr) (b : Bounds) : Expr := .match_ x [(.int b, .bool true), (.wildcard, .bool false)]

/-- `is_within_any` (src/helper.rs:1648-1657) -/
def isWithinAny (x : Expr) (bs : List Bounds) : Expr :=
  .match_ x (bs.map (fun b => (Pattern.int b, Expr.bool true)) ++ [(.wildcard, .bool false)])

/-- `where_between`, `expect_between` with their instances (src/helper.rs:914-937, 949-1001); `strict` is false for `expect`. -/
def whereBetween (strict : Bool) (w : BitWidth) (f : Format) (lower upper : Nat) : Format :=
  if lower = 0 then .where_ f (.lambda "x" (.intRel .lte (.var "x") (lit w upper))) strict
  else .where_ f (.lambda "x" (isWithin (.var "x") (Bounds.new lower upper))) strict

/-- `where_within`, `expect_within` (src/helper.rs:1011-1024) -/
def whereWithin (strict : Bool) (f : Format) (b : Bounds) : Format :=
  .where_ f (.lambda "x" (isWithin (.var "x") b)) strict

/-- `where_within_any` (src/helper.rs:1030-1035) -/
def whereWithinAny (f : Format) (bs : List Bounds) : Format :=
  .where_ f (.lambda "x" (isWithinAny (.var "x") bs)) true

/-- `expect_eq` (src/helper.rs:1042-1045) -/
def expectEq (f : Format) (e : Expr) : Format := .where_ f (.lambda "actual" (.intRel .eq (.var "actual") e)) true

/-- `where_nonzero`, `expect_nonzero` with `is_nonzero` (src/helper.rs:1092-1094, 1139-1146) -/
def whereNonzero (strict : Bool) (w : BitWidth) (f : Format) : Format :=
  .where_ f (.lambda "x" (.intRel .ne (.var "x") (lit w 0))) strict

/-! ### expressions -/

/-- `expr_if_else` (src/helper.rs:1237-1245) -/
def ifElse (c t e : Expr) : Expr := .match_ c [(.bool true, t), (.bool false, e)]

/-- `expr_opt_if` (src/helper.rs:1253-1255) -/
def optIf (c t : Expr) : Expr := ifElse c (.liftSome t) .liftNone

/-- `expr_unwrap` (src/helper.rs:1260-1262) -/
def unwrap (e : Expr) : Expr := .match_ e [(.optSome (.binding "x"), .var "x")]

/-- `unwrap_singleton` (src/helper.rs:1267-1272) -/
def unwrapSingleton (e : Expr) : Expr := .match_ e [(.seq [.binding "x"], .var "x")]

/-- `index_checked` (src/helper.rs:1331-1335) -/
def indexChecked (s i : Expr) : Expr := optIf (.intRel .lt i (.seqLength s)) (.seqIx s i)

/-- `seq_last_checked` (src/helper.rs:1607-1612) -/
def seqLastChecked (s : Expr) : Expr :=
  optIf (.intRel .ne (.seqLength s) (lit .b32 0)) (.seqIx s (.unary .intPred (.seqLength s)))

/-- `seq_last_unchecked` (src/helper.rs:1617-1619) -/
def seqLastUnchecked (s : Expr) : Expr := .seqIx s (.unary .intPred (.seqLength s))

/-- `lambda_tuple` (src/helper.rs:1351-1361) -/
def lambdaTuple (names : List String) (body : Expr) : Expr :=
  .lambda "tuple_var" (.destructure (.var "tuple_var") (.tuple (names.map Pattern.binding)) body)

/-- `expr_max` (src/helper.rs:1395-1397) -/
def max (a b : Expr) : Expr := ifElse (.intRel .gte a b) a b

/-- the loop of `subset_fields` and `prepend_field` (src/helper.rs:1407-1416, 1441-1449): a field met twice is
`unreachable!` -/
def projectFields (e : Expr) : List String → List String → List (String × Expr) → Panicky (List (String × Expr))
  | _, [], acc => .ok acc
  | seen, l :: ls, acc =>
    if l ∈ seen then .panic else projectFields e (l :: seen) ls (acc ++ [(l, .recordProj e l)])

/-- `subset_fields` (src/helper.rs:1404-1418) -/
def subsetFields (e : Expr) (labels : List String) : Panicky Expr := do
  let fs ← projectFields e [] labels []
  .ok (.record fs)

/-- `prepend_field` (src/helper.rs:1428-1451) -/
def prependField (label : String) (x e : Expr) (labels : List String) : Panicky Expr := do
  let fs ← projectFields e [label] labels [(label, x)]
  .ok (.record fs)

/-- `concat` with `f_id` (src/helper.rs:1230-1232, 1456-1458) -/
def concat (xs : Expr) : Expr := .flatMap (.lambda "x" (.var "x")) xs

/-- `seq_any` (src/helper.rs:1468-1478) -/
def seqAny (f : Expr → Expr) (s : Expr) : Expr :=
  .leftFold (lambdaTuple ["any", "x"] (.arith .boolOr (.var "any") (f (.var "x")))) (.bool false) (.base .bool) s

/-- `expr_option_map_or` (src/helper.rs:1485-1487) -/
def optionMapOr (dft : Expr) (f : Expr → Expr) (x : Expr) : Expr :=
  .match_ x [(.optSome (.binding "x"), f (.var "x")), (.optNone, dft)]

/-- `expr_option_unwrap_first` (src/helper.rs:1497-1505) -/
def optionUnwrapFirst (a b : Expr) : Expr :=
  .match_ a [(.optSome (.binding "x"), .var "x"), (.optNone, unwrap b)]

/-- one round of `balance_merge` (src/helper.rs:1570-1582): neighbours are combined -/
def mergePairs (f : Expr → Expr → Expr) : List Expr → List Expr
  | l :: r :: rest => f l r :: mergePairs f rest
  | rest => rest

theorem mergePairs_length (f : Expr → Expr → Expr) : ∀ xs, (mergePairs f xs).length ≤ xs.length
  | [] => Nat.le_refl _
  | [_] => Nat.le_refl _
  | _ :: _ :: rest => by
    have := mergePairs_length f rest
    simp only [mergePairs, List.length_cons]; omega

/-- `balance_merge` (src/helper.rs:1550-1587), with the nodes made; no nodes is `unreachable!` -/
def balanceMerge (f : Expr → Expr → Expr) : List Expr → Panicky Expr
  | [] => .panic
  | [x] => .ok x
  | x :: y :: rest => balanceMerge f (mergePairs f (x :: y :: rest))
termination_by xs => xs.length
decreasing_by
  have := mergePairs_length f rest
  simp only [mergePairs, List.length_cons]; omega

/-- `balanced_bitor` (src/helper.rs:1537-1539) -/
def balancedBitor (nodes : List Expr) : Panicky Expr := balanceMerge (.arith .bitOr) nodes

/-- `interpret_as_enum` (src/helper.rs:2102-2119) -/
def interpretAsEnum (e : Expr) (mapping : List (Pattern × String)) (fallthrough : Option String) : Expr :=
  .match_ e (mapping.map (fun p => (p.1, Expr.variant p.2 Expr.unit)) ++
    (fallthrough.map fun l => (Pattern.binding "other", Expr.variant l (.var "other"))).toList)

/-! ### formats made of others -/

/-- `optional` (src/helper.rs:523-525) -/
def optional (f : Format) : Format := .union [.liftedSome f, .liftedNone]

/-- `void` (src/helper.rs:1201-1203) -/
def void (f : Format) : Format := .monadSeq f (.compute Expr.unit)

/-- `then_align` with `align_then` and `chain` (src/helper.rs:1159-1161, 1179-1187) -/
def thenAlign (f : Format) (n : Nat) : Format :=
  .letFormat f "x" (.monadSeq (.align n) (.compute (.var "x")))

/-- `excluding` (src/helper.rs:1529-1531) -/
def excluding (negative inner : Format) : Format := .monadSeq (.peekNot negative) inner

/-- `any_of` (src/helper.rs:1519-1521) -/
def anyOf (fs : List Format) : Format := .unionNondet (fs.map void)

/-- `if_then_else` (src/helper.rs:596-604) -/
def ifThenElse (c : Expr) (t e : Format) : Format := .match_ c [(.bool true, t), (.bool false, e)]

/-- `bind_option`, `map_option` (src/helper.rs:1280-1292, 1303-1310) -/
def mapOption (e : Expr) (x : String) (f : Expr → Format) : Format :=
  .match_ e [(.optSome (.binding x), .liftedSome (f (.var x))), (.optNone, .liftedNone)]

/-- `with_relative_offset` without a base address (src/helper.rs:1665-1676) -/
def offsetFromHere (off : Expr) (f : Format) : Format :=
  .letFormat .pos "__here" (.withRelativeOffset (.var "__here") off f)

/-- `capture_bytes_from_here` with `from_here` (src/helper.rs:1760-1768) -/
def captureFromHere (len : Expr) : Format :=
  .letView "here_view" (.captureBytes (.var "here_view") len)

end Helper
end Doodle
