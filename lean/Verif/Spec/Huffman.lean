/-! Specification of canonical prefix codes (RFC 1951, section 3.2.2), independent of the model. -/

namespace Doodle
namespace Huffman

/-- Sum of `g x` over the members of `l` satisfying `p`. -/
def sumIf {α : Type} (p : α → Bool) (g : α → Nat) : List α → Nat
  | [] => 0
  | x :: xs => (if p x then g x else 0) + sumIf p g xs

/-- Symbol `m` of length `lm` comes before symbol `n` of length `ln` in a canonical code: shorter
codes first, equal lengths in symbol order.  Symbols of length 0 do not occur. -/
def before (n ln : Nat) (p : Nat × Nat) : Bool :=
  p.1 != 0 && (decide (p.1 < ln) || (p.1 == ln && decide (p.2 < n)))

/-- The canonical code of symbol `n` with length `ln`: the code space used up by the symbols before it,
in units of `2^-ln`. `L.zipIdx` lists (length, symbol). -/
def canonCode (L : List Nat) (n ln : Nat) : Nat :=
  sumIf (before n ln) (fun p => 2 ^ (ln - p.1)) L.zipIdx

/-- The code lengths do not over-subscribe the code space: `Σ 2^-l ≤ 1`, scaled by `2^W`
(`W` at least every length). -/
def KraftOk (W : Nat) (L : List Nat) : Prop :=
  sumIf (fun l => l != 0) (fun l => 2 ^ (W - l)) L ≤ 2 ^ W

/-- The `len` low bits of `v`, most significant first. -/
def bitsOf : Nat → Nat → List UInt8
  | 0, _ => []
  | len + 1, v => (if v / 2 ^ len % 2 = 1 then 1 else 0) :: bitsOf len v

/-- The canonical code table in symbol order. -/
def canonTable (L : List Nat) : List (List UInt8 × Nat) :=
  L.zipIdx.filterMap fun p => if p.1 = 0 then none else some (bitsOf p.1 (canonCode L p.2 p.1), p.2)

end Huffman
end Doodle
