import Verif.Model.Helper
import Verif.Model.Compile

/-! What the formats and expressions made by the helpers are to do, independently of how they are made. -/

namespace Doodle
namespace Helper

open Num (BitWidth)

/-- Every run of the decoder with enough steps ends with `r`. -/
def Ends (env : Env) (d : Decoder) (s : Scope Decoder) (c : ReadCtxt) (r : Outcome DecodeErr Parsed) : Prop :=
  r ≠ .fuel ∧ ∃ n, ∀ k, Decoder.parse env (n + k) d s c = r

/-- The format compiles wherever it stands and adds no decoder to the program, and each run of its decoder ends with
the result `r` gives for the scope and the input. -/
def Behaves [DecidableEq Next] (f : Format) (r : Scope Decoder → ReadCtxt → Outcome DecodeErr Parsed) : Prop :=
  ∀ (m : Module) (o : BuildOpts) (next : Next) (st : CompSt), ∃ d, compileFormat m o f next st = .ok (d, st) ∧
    ∀ env s c, Ends env d s c (r s c)

/-- the bytes that have not been read -/
def unread (c : ReadCtxt) : List UInt8 := c.input.drop c.offset

/-- `n` bytes are read and `k` is the value they stand for; fewer bytes are an error at the end of the input. -/
def reads (n : Nat) (k : List UInt8 → Value) (c : ReadCtxt) : Outcome DecodeErr Parsed :=
  if n ≤ (unread c).length then .ok ⟨(k ((unread c).take n), ⟨c.input, c.offset + n⟩), []⟩
  else .err (.overbyte (Nat.max c.offset c.input.length))

/-- the unsigned integer `n` of `w` bits -/
def num (w : BitWidth) (n : Nat) : Value := .num (.fixed w) (Fin.ofNat _ n)

/-! ### integers in bytes -/

/-- the number written with these digits to the base 256, the first one the most significant -/
def bigEnd : List UInt8 → Nat
  | [] => 0
  | b :: bs => b.toNat * 256 ^ bs.length + bigEnd bs

/-- the number written with these digits to the base 256, the first one the least significant -/
def littleEnd : List UInt8 → Nat
  | [] => 0
  | b :: bs => b.toNat + 256 * littleEnd bs

/-- the number that `n` stands for in two's complement of `w` bits -/
def twosComplement (w : BitWidth) (n : Nat) : Int :=
  if 2 * n < 2 ^ w.bits then (n : Int) else (n : Int) - 2 ^ w.bits

/-- the value of a decoded word: the integer, with the bytes it was made from -/
def wordValue (w : BitWidth) (be : Bool) (bs : List UInt8) : Value :=
  .mapped (.tuple (bs.map Value.u8)) (num w (if be then bigEnd bs else littleEnd bs))

/-! ### bits -/

/-- the bits of a byte, the most significant first -/
def msbFirst (b : UInt8) : List Bool := (List.range 8).map fun i => b.toNat.testBit (7 - i)

/-- the number written with these binary digits, the first one the most significant -/
def binary : List Bool → Nat
  | [] => 0
  | b :: bs => (if b then 1 else 0) * 2 ^ bs.length + binary bs

/-- The bits are cut into the fields, one after the other: the named fields, in order, each with its bits as a number
of `w` bits or as a flag. -/
def cut (w : BitWidth) : List BitField → List Bool → List (String × Value)
  | [], _ => []
  | .flag x :: fs, bits => (x, .bool (bits.take 1 == [true])) :: cut w fs (bits.drop 1)
  | .bits x n :: fs, bits => (x, num w (binary (bits.take n))) :: cut w fs (bits.drop n)
  | .reserved n _ :: fs, bits => cut w fs (bits.drop n)

/-- the value of a record without fields is the unit value -/
def recordOf (fs : List (String × Value)) : Value := if fs = [] then .tuple [] else .record fs

/-- The fields fill the word, none is empty or the whole word, and the names are different names of kept fields. -/
structure Fields (w : BitWidth) (fs : List BitField) : Prop where
  total : (fs.map BitField.width).sum = w.bits
  part : ∀ f ∈ fs, 0 < f.width ∧ f.width < w.bits
  kept : ∀ f ∈ fs, ∀ x, f.name = some x → Record.autoLabel x = some (x, true)
  nodup : (fs.filterMap BitField.name).Nodup

/-- the reserved segments that are to be zero are zero -/
def zeroed : List BitField → List Bool → Prop
  | [], _ => True
  | .reserved n true :: fs, bits => (∀ b ∈ bits.take n, b = false) ∧ zeroed fs (bits.drop n)
  | f :: fs, bits => zeroed fs (bits.drop f.width)

end Helper
end Doodle
