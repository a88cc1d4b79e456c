import Verif.Model.ByteSetPrint

/-!
What printed byte sets say (C63).
-/

namespace Doodle
namespace ByteSet

/-- The names: all bytes, ASCII, printable ASCII with tab and line ends (and 127), digits. -/
def Named : String → UInt8 → Prop
  | "U8", _ => True
  | "ASCII", b => b.toNat < 128
  | "ASCII.Strict", b => b.toNat = 9 ∨ b.toNat = 10 ∨ b.toNat = 13 ∨ 32 ≤ b.toNat ∧ b.toNat < 128
  | "ASCII.Decimal", b => '0'.toNat ≤ b.toNat ∧ b.toNat ≤ '9'.toNat
  | "ASCII.Octal", b => '0'.toNat ≤ b.toNat ∧ b.toNat ≤ '7'.toNat
  | "ASCII.HexLower", b => '0'.toNat ≤ b.toNat ∧ b.toNat ≤ '9'.toNat ∨ 'a'.toNat ≤ b.toNat ∧ b.toNat ≤ 'f'.toNat
  | "ASCII.HexUpper", b => '0'.toNat ≤ b.toNat ∧ b.toNat ≤ '9'.toNat ∨ 'A'.toNat ≤ b.toNat ∧ b.toNat ≤ 'F'.toNat
  | "ASCII.Hex", b => '0'.toNat ≤ b.toNat ∧ b.toNat ≤ '9'.toNat ∨ 'A'.toNat ≤ b.toNat ∧ b.toNat ≤ 'F'.toNat ∨
      'a'.toNat ≤ b.toNat ∧ b.toNat ≤ 'f'.toNat
  | _, _ => False

/-- The bytes that a piece stands for: `⟦lo,hi⟧` is the closed interval, `∁` the complement. -/
def Piece.Means : Piece → UInt8 → Prop
  | .name s, b => Named s b
  | .none, _ => False
  | .one x, b => b = x
  | .butOne x, b => b ≠ x
  | .list bs, b => b ∈ bs
  | .butList bs, b => b ∉ bs
  | .range lo hi, b => lo ≤ b ∧ b ≤ hi

/-- The bytes that the pieces stand for, joined by `∪`. -/
def Means (ps : List Piece) (b : UInt8) : Prop := ∃ p ∈ ps, p.Means b

/-- the bytes from `lo` to `hi` -/
def IsRange (s : ByteSet) (lo hi : UInt8) : Prop := ∀ b, s.contains b = true ↔ lo ≤ b ∧ b ≤ hi

end ByteSet
end Doodle
