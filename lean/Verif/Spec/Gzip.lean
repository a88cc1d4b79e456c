import Verif.Spec.Helper

/-! The layout of the extra field of gzip (RFC 1952, 2.3.1.1), and what its value is to say, independently of how the format
is written. -/

namespace Doodle
namespace Gzip

open Helper (littleEnd num)

/-- a subfield: its two letters, the bytes of its length, and its data -/
structure Sub where
  si1 : UInt8
  si2 : UInt8
  size : List UInt8
  data : List UInt8

/-- the length has two bytes, the less significant first -/
def Sub.Valid (x : Sub) : Prop := x.size.length = 2 ∧ littleEnd x.size = x.data.length

/-- the bytes of a subfield -/
def Sub.encode (x : Sub) : List UInt8 := x.si1 :: x.si2 :: x.size ++ x.data

/-- the bytes of a length, with the number they stand for -/
def lengthOf (u : List UInt8) : Value := .mapped (.tuple (u.map Value.u8)) (num .b16 (littleEnd u))

/-- what the value of a subfield shows -/
def Sub.value (x : Sub) : Value :=
  .record [("si1", .u8 x.si1), ("si2", .u8 x.si2), ("len", lengthOf x.size), ("data", .seq (.strict (x.data.map Value.u8)))]

/-- an extra field: the bytes of its length, and its subfields -/
structure Extra where
  size : List UInt8
  subs : List Sub

/-- the length has two bytes, and is that of the subfields together -/
def Extra.Valid (x : Extra) : Prop :=
  x.size.length = 2 ∧ (∀ y ∈ x.subs, y.Valid) ∧ littleEnd x.size = (x.subs.flatMap Sub.encode).length

/-- the bytes of an extra field -/
def Extra.encode (x : Extra) : List UInt8 := x.size ++ x.subs.flatMap Sub.encode

/-- what its value shows -/
def Extra.value (x : Extra) : Value := .record [("xlen", lengthOf x.size), ("subfields", .seq (.strict (x.subs.map Sub.value)))]

end Gzip
end Doodle
