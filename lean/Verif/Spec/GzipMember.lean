import Verif.Spec.Gzip
import Verif.Spec.GzipHeader
import Verif.Spec.Grammar

/-! The layout of gzip members (RFC 1952, 2.2 and 2.3), independently of how the format is written.  What the
compressed data looks like is a parameter: `D c v c' k` says that from `c` to `c'` there is data with the value `v`, where `k`
deviations are tolerated. -/

namespace Doodle
namespace GzipMember

open Helper (littleEnd num)

/-- the bytes from `c` to `c'` are these -/
def Between (c : ReadCtxt) (u : List UInt8) (c' : ReadCtxt) : Prop :=
  (∃ rest, c.input.drop c.offset = u ++ rest) ∧ c' = ⟨c.input, c.offset + u.length⟩

/-- an optional field, which is there or not -/
def Part (there : Bool) (P : ReadCtxt → Value → ReadCtxt → Nat → Prop) (c : ReadCtxt) (v : Value) (c' : ReadCtxt) (k : Nat) : Prop :=
  match there with
  | true => ∃ x, P c x c' k ∧ v = .optSome x
  | false => v = .optNone ∧ c' = c ∧ k = 0

/-- bytes other than zero, and then a zero byte -/
def Name (c : ReadCtxt) (v : Value) (c' : ReadCtxt) (k : Nat) : Prop :=
  ∃ u : List UInt8, 0 ∉ u ∧ Between c (u ++ [0]) c' ∧ v = .seq (.strict (u.map Value.u8)) ∧ k = 0

/-- the same, in a record -/
def Comment (c : ReadCtxt) (v : Value) (c' : ReadCtxt) (k : Nat) : Prop :=
  ∃ u : List UInt8, 0 ∉ u ∧ Between c (u ++ [0]) c' ∧ v = .record [("comment", .seq (.strict (u.map Value.u8)))] ∧ k = 0

/-- two bytes, the less significant first -/
def Checksum (c : ReadCtxt) (v : Value) (c' : ReadCtxt) (k : Nat) : Prop :=
  ∃ u : List UInt8, u.length = 2 ∧ Between c u c' ∧ v = .record [("crc", .mapped (.tuple (u.map Value.u8)) (num .b16 (littleEnd u)))] ∧ k = 0

/-- An extra field, where bytes may be left after the subfields: two bytes for the length of what comes after them, the subfields,
and what is left. -/
def ExtraField (c : ReadCtxt) (v : Value) (c' : ReadCtxt) (k : Nat) : Prop :=
  ∃ (x : Gzip.Extra) (left : List UInt8), x.size.length = 2 ∧ (∀ y ∈ x.subs, y.Valid) ∧
    littleEnd x.size = (x.subs.flatMap Gzip.Sub.encode ++ left).length ∧ Between c (x.encode ++ left) c' ∧ v = x.value ∧ k = 0

/-- A member: its header; the extra field, the name, the comment and the checksum, each of them if its flag is set, in this
order; the data; the trailer. -/
def Member (D : ReadCtxt → Value → ReadCtxt → Nat → Prop) (c : ReadCtxt) (v : Value) (c' : ReadCtxt) (k : Nat) : Prop :=
  ∃ (h : GzipHeader.Header) (f : GzipHeader.Footer) (extra name comment sum data : Value) (c1 c2 c3 c4 c5 c6 : ReadCtxt),
    h.Valid ∧ Between c h.encode c1 ∧
    Part (h.flags.toNat.testBit 2) ExtraField c1 extra c2 0 ∧
    Part (h.flags.toNat.testBit 3) Name c2 name c3 0 ∧
    Part (h.flags.toNat.testBit 4) Comment c3 comment c4 0 ∧
    Part (h.flags.toNat.testBit 1) Checksum c4 sum c5 0 ∧
    D c5 data c6 k ∧ f.Valid ∧ Between c6 f.encode c' ∧
    v = .record [("header", h.value), ("fextra", extra), ("fname", name), ("fcomment", comment), ("fhcrc", sum), ("data", data),
      ("footer", f.value)]

/-- members, one after the other -/
inductive Members (D : ReadCtxt → Value → ReadCtxt → Nat → Prop) : ReadCtxt → List Value → ReadCtxt → Nat → Prop
  | nil {c} : Members D c [] c 0
  | cons {c v c' vs c'' k k'} : Member D c v c' k → Members D c' vs c'' k' → Members D c (v :: vs) c'' (k + k')

end GzipMember
end Doodle
