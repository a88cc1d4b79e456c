import Verif.Lemmas.Reads
import Verif.Lemmas.Utf8
import Verif.Lemmas.Conditions
import Verif.Props.Conditions
import Verif.Spec.Regular

/-! The derivations of the UTF-8 text format. -/

namespace Doodle
namespace Text

open Grammar
open Num (BitWidth)
open Helper

/-! ### expressions -/

section
variable {δ : Type} {s : Scope δ}

theorem u8_num (b : UInt8) : Value.u8 b = num .b8 b.toNat := (num_eq (w := .b8) b.toNat_lt).symm

theorem is_asNum {x : Expr} {w w' : BitWidth} {n : Nat} (h : n < 2 ^ w.bits) (h' : n < 2 ^ w'.bits) (hx : Is x s (num w n)) :
    Is (.asNum w' x) s (num w' n) := by
  obtain ⟨v, hv, hv'⟩ := is_iff.1 hx
  refine is_iff.2 ⟨num w' n, ?_, rfl⟩
  rw [Expr.eval, bind_ok_eq hv, hv', num_eq h]
  exact mkNum_eq h'

theorem is_shl {a b : Expr} {w : BitWidth} {x k : Nat} (hk : k < w.bits) (hx : x * 2 ^ k < 2 ^ w.bits)
    (ha : Is a s (num w x)) (hb : Is b s (num w k)) : Is (.arith .shl a b) s (num w (x * 2 ^ k)) := by
  obtain ⟨u, hu, hu'⟩ := is_iff.1 ha
  obtain ⟨v, hv, hv'⟩ := is_iff.1 hb
  have hx' : x < 2 ^ w.bits := Nat.lt_of_le_of_lt (Nat.le_mul_of_pos_right _ (Nat.two_pow_pos _)) hx
  have hk' : k < 2 ^ w.bits := Nat.lt_trans hk Nat.lt_two_pow_self
  have hk2 : k % u32Card = k := Nat.mod_eq_of_lt (Nat.lt_of_lt_of_le (Nat.lt_of_lt_of_le hk (bits_le w)) (by decide))
  refine is_iff.2 ⟨num w (x * 2 ^ k), ?_, rfl⟩
  rw [Expr.eval, bind_ok_eq hu, bind_ok_eq hv, hu', hv', arith_num (by decide) (by decide) hx' hk']
  unfold Value.arithNum
  dsimp only
  rw [hk2, if_pos (show k < (UKind.fixed w).bits from hk), Nat.shiftLeft_eq,
    Nat.mod_eq_of_lt (show x * 2 ^ k < (UKind.fixed w).card from hx)]
  exact mkNum_eq hx

theorem is_or_shl {a b : Expr} {x y k : Nat} (hk : k < 32) (hx : x * 2 ^ k + y < 2 ^ 32) (hy : y < 2 ^ k)
    (ha : Is a s (num .b32 x)) (hb : Is b s (num .b32 y)) :
    Is (.arith .bitOr (.arith .shl a (lit .b32 k)) b) s (num .b32 (x * 2 ^ k + y)) := by
  have h := is_bitOr (s := s) (w := .b32) (x := x * 2 ^ k) (y := y) (Nat.lt_of_le_of_lt (Nat.le_add_right _ _) hx)
    (Nat.lt_of_le_of_lt (Nat.le_add_left _ _) hx) (is_shl (w := .b32) hk (Nat.lt_of_le_of_lt (Nat.le_add_right _ _) hx) ha is_lit) hb
  rwa [← Nat.shiftLeft_eq, ← Nat.shiftLeft_add_eq_or_of_lt hy, Nat.shiftLeft_eq] at h

theorem is_asChar {x : Expr} {n : Nat} (h : n.isValidChar) (hx : Is x s (num .b32 n)) :
    Is (.asChar x) s (.char (Char.ofNat n)) := by
  obtain ⟨v, hv, hv'⟩ := is_iff.1 hx
  have hn : n < 2 ^ 32 := by
    have : n < 0x110000 := by unfold Nat.isValidChar at h; omega
    exact Nat.lt_trans this (by decide)
  refine is_iff.2 ⟨.char (Char.ofNat n), ?_, rfl⟩
  rw [Expr.eval, bind_ok_eq hv, hv', num_eq (w := .b32) hn]
  unfold Expr.castChar
  dsimp only
  rw [if_pos (show n < u32Card from hn)]
  unfold Expr.charOfU32 Char.ofNat
  rw [dif_pos h, dif_pos h]

end

/-! ### digits -/

/-- a byte, with the value of its last `p` bits -/
def digit (p : Nat) (b : UInt8) : Value := .mapped (.u8 b) (num .b8 (b.toNat % 2 ^ p))

variable {m : Module}

/-- a format of one byte of a range, which stands for the last `p` bits of the byte -/
def Digit (m : Module) (f : Format) (r : Nat × Nat) (p : Nat) : Prop :=
  (Reads m f fun _ u v => ∃ b, u = [b] ∧ (r.1 ≤ b.toNat ∧ b.toNat ≤ r.2) ∧ v = digit p b) ∧
  Spells m f fun u => ∃ b, u = [b] ∧ (r.1 ≤ b.toNat ∧ b.toNat ≤ r.2)

theorem sends_mask (s : Scope Format) (b : UInt8) {n p : Nat} (hp : p ≤ 8) (h : dropMasks.getD n 0 = 2 ^ p - 1) :
    Sends (.lambda "raw" (.arith .bitAnd (.var "raw") (lit .b8 (dropMasks.getD n 0)))) s (.u8 b) (num .b8 (b.toNat % 2 ^ p)) := by
  refine lambda_of (is_iff.2 ⟨num .b8 (b.toNat % 2 ^ p), ?_, rfl⟩)
  have hm : 2 ^ p - 1 < 2 ^ BitWidth.b8.bits := by
    have : (2 : Nat) ^ p ≤ 2 ^ 8 := Nat.pow_le_pow_right (by decide) hp
    show 2 ^ p - 1 < 2 ^ 8
    have := Nat.two_pow_pos p
    omega
  rw [Expr.eval, bind_ok_eq (var_single _ _ _), h, bind_ok_eq (lit_eval _ _ _), u8_num]
  show Value.arith .bitAnd (num .b8 b.toNat) (num .b8 (2 ^ p - 1)) = _
  rw [arith_num (by decide) (by decide) b.toNat_lt hm]
  show Value.mkNum (.fixed .b8) (b.toNat &&& (2 ^ p - 1)) = _
  rw [Nat.and_two_pow_sub_one_eq_mod]
  exact mkNum_eq (Nat.lt_of_le_of_lt (Nat.mod_le _ _) b.toNat_lt)

theorem digit_drop {bs : ByteSet} {n : Nat} {r : Nat × Nat} (p : Nat) (hp : p ≤ 8) (h : dropMasks.getD n 0 = 2 ^ p - 1)
    (hb : ∀ b, bs.contains b = true ↔ (r.1 ≤ b.toNat ∧ b.toNat ≤ r.2)) : Digit m (dropMsb n (.byte bs)) r p := by
  constructor
  · refine (reads_map (reads_byte bs)).congr fun s u v => ?_
    constructor
    · rintro ⟨_, x, ⟨b, rfl, h1, rfl⟩, h2, rfl⟩
      have := (sends_mask s b hp h).symm.trans h2
      cases this
      exact ⟨b, rfl, (hb b).1 h1, rfl⟩
    · rintro ⟨b, rfl, h1, rfl⟩
      exact ⟨_, _, ⟨b, rfl, (hb b).2 h1, rfl⟩, sends_mask s b hp h, rfl⟩
  · intro u
    rw [dropMsb, spells_map (spells_byte bs) u]
    constructor
    · rintro ⟨b, rfl, h1⟩; exact ⟨b, rfl, (hb b).1 h1⟩
    · rintro ⟨b, rfl, h1⟩; exact ⟨b, rfl, (hb b).2 h1⟩

theorem digit_in (lo hi : UInt8) {n p : Nat} (hp : p ≤ 8) (h : dropMasks.getD n 0 = 2 ^ p - 1) :
    Digit m (dropMsb n (byteIn lo hi)) (lo.toNat, hi.toNat) p :=
  digit_drop p hp h fun b => by
    rw [ByteSet.C01_contains_fromRangeInclusive, UInt8.le_iff_toNat_le, UInt8.le_iff_toNat_le]

theorem digit_is (x : UInt8) {n p : Nat} (hp : p ≤ 8) (h : dropMasks.getD n 0 = 2 ^ p - 1) :
    Digit m (dropMsb n (isByte x)) (x.toNat, x.toNat) p :=
  digit_drop p hp h fun b => by
    rw [ByteSet.C01_contains_fromIter, List.mem_singleton, ← UInt8.toNat_inj]
    dsimp only; omega

theorem digit_item {l : Nat} {f : Format} {r : Nat × Nat} {p : Nat} (hi : m.items[l]? = some ⟨[], [], f⟩) (h : Digit m f r p) :
    Digit m (.itemVar l [] []) r p := ⟨reads_item hi h.1, spells_item hi h.2⟩

/-- digits one after the other -/
def Digits (m : Module) (fs : List Format) (rs : List (Nat × Nat)) (ps : List Nat) : Prop :=
  (ReadsAll m fs fun _ u vs => Within rs u ∧ vs = List.zipWith digit ps u) ∧ ∀ u, Words m fs u ↔ Within rs u

theorem digits_nil : Digits m [] [] [] := by
  constructor
  · intro rej s c vs c' n
    rw [readsAll_nil rej s c vs c' n]
    constructor
    · rintro ⟨u, r, h1, ⟨rfl, rfl⟩, h3⟩; exact ⟨_, r, h1, ⟨rfl, rfl⟩, h3⟩
    · rintro ⟨u, r, h1, ⟨h2, rfl⟩, h3⟩; exact ⟨u, r, h1, ⟨h2, rfl⟩, h3⟩
  · intro u; exact words_nil

theorem digits_cons {f : Format} {fs : List Format} {r : Nat × Nat} {rs : List (Nat × Nat)} {p : Nat} {ps : List Nat}
    (h : Digit m f r p) (hs : Digits m fs rs ps) : Digits m (f :: fs) (r :: rs) (p :: ps) := by
  constructor
  · intro rej s c vs c' n
    rw [readsAll_cons h.1 hs.1 rej s c vs c' n]
    constructor
    · rintro ⟨_, rest, h1, ⟨_, u', _, _, rfl, rfl, ⟨b, rfl, hb, rfl⟩, hw, rfl⟩, h3⟩
      exact ⟨_, rest, h1, ⟨⟨b, u', rfl, hb, hw⟩, rfl⟩, h3⟩
    · rintro ⟨_, rest, h1, ⟨⟨b, u', rfl, hb, hw⟩, rfl⟩, h3⟩
      exact ⟨_, rest, h1, ⟨[b], u', _, _, rfl, rfl, ⟨b, rfl, hb, rfl⟩, hw, rfl⟩, h3⟩
  · intro u
    rw [words_cons]
    constructor
    · rintro ⟨v, w, rfl, h1, h2⟩
      obtain ⟨b, rfl, hb⟩ := (h.2 v).1 h1
      exact ⟨b, w, rfl, hb, (hs.2 w).1 h2⟩
    · rintro ⟨b, w, rfl, hb, hw⟩
      exact ⟨[b], w, rfl, (h.2 _).2 ⟨b, rfl, hb⟩, (hs.2 w).2 hw⟩

/-- what a tuple of digits reads -/
def Num (F : List (Nat × Nat)) (ps : List Nat) (u : List UInt8) (v : Value) : Prop :=
  Within F u ∧ v = .tuple (List.zipWith digit ps u)

theorem reads_digits {fs : List Format} {rs : List (Nat × Nat)} {ps : List Nat} (h : Digits m fs rs ps) :
    Reads m (.tuple fs) fun _ u v => Num rs ps u v :=
  (reads_tuple h.1).congr fun _ u v => by
    constructor
    · rintro ⟨_, ⟨h1, rfl⟩, rfl⟩; exact ⟨h1, rfl⟩
    · rintro ⟨h1, rfl⟩; exact ⟨_, ⟨h1, rfl⟩, rfl⟩

/-! ### code points -/

/-- A format whose derivations are those of the forms `Fs`, with the code point as value. -/
structure Codes (m : Module) (f : Format) (Fs : List (List (Nat × Nat))) where
  L : Scope Format → List UInt8 → Value → Prop
  reads : Reads m f L
  value : ∀ s u v, L s u v → (∃ F ∈ Fs, Within F u) ∧ v.coerceMapped = num .b32 (decode u)
  found : ∀ s F u, F ∈ Fs → Within F u → ∃ v, L s u v
  words : ∀ u, Word m f u ↔ ∃ F ∈ Fs, Within F u
  total : Total m f

section
variable (s : Scope Format)

theorem sends_2 (v : Value) (a b : UInt8) (hv : v.coerceNominal = .tuple [digit 5 a, digit 6 b]) :
    Sends (lambdaTuple ["x1", "x0"] (shift62 (.var "x1") (.var "x0"))) s v (num .b32 (decode [a, b])) := by
  refine lambda_of (is_iff.2 ⟨num .b32 (decode [a, b]), ?_, rfl⟩)
  rw [Expr.eval, bind_ok_eq (var_single _ _ _)]
  have hm : v.matchesPat (.tuple (["x1", "x0"].map Pattern.binding)) = some [("x1", digit 5 a), ("x0", digit 6 b)] := by
    unfold Value.matchesPat; rw [hv]; rfl
  rw [hm]
  dsimp only
  have ha := a.toNat_lt
  have hb := b.toNat_lt
  have h : Is (shift62 (.var "x1") (.var "x0")) (Scope.withBindings (.single "tuple_var" v s) [("x1", digit 5 a), ("x0", digit 6 b)])
      (num .b32 (a.toNat % 32 * 2 ^ 6 + b.toNat % 64)) := by
    refine is_or_shl (by decide) (by omega) (by omega) (is_asNum (w := .b8) ?_ ?_ (is_iff.2 ⟨digit 5 a, rfl, rfl⟩))
      (is_asNum (w := .b8) ?_ ?_ (is_iff.2 ⟨digit 6 b, rfl, rfl⟩)) <;> simp only [BitWidth.bits] <;> omega
  obtain ⟨r, hr, hr'⟩ := is_iff.1 h
  rw [bind_ok_eq hr, hr']; rfl

theorem sends_3 (v : Value) (a b c : UInt8) (hv : v.coerceNominal = .tuple [digit 4 a, digit 6 b, digit 6 c]) :
    Sends (lambdaTuple ["x2", "x1", "x0"] (shift63 (.var "x2") (.var "x1") (.var "x0"))) s v (num .b32 (decode [a, b, c])) := by
  refine lambda_of (is_iff.2 ⟨num .b32 (decode [a, b, c]), ?_, rfl⟩)
  rw [Expr.eval, bind_ok_eq (var_single _ _ _)]
  have hm : v.matchesPat (.tuple (["x2", "x1", "x0"].map Pattern.binding)) =
      some [("x2", digit 4 a), ("x1", digit 6 b), ("x0", digit 6 c)] := by
    unfold Value.matchesPat; rw [hv]; rfl
  rw [hm]
  dsimp only
  have ha := a.toNat_lt
  have hb := b.toNat_lt
  have hc := c.toNat_lt
  have h : Is (shift63 (.var "x2") (.var "x1") (.var "x0"))
      (Scope.withBindings (.single "tuple_var" v s) [("x2", digit 4 a), ("x1", digit 6 b), ("x0", digit 6 c)])
      (num .b32 (a.toNat % 16 * 2 ^ 12 + (b.toNat % 64 * 2 ^ 6 + c.toNat % 64))) := by
    refine is_or_shl (by decide) (by omega) (by omega) (is_asNum (w := .b8) ?_ ?_ (is_iff.2 ⟨digit 4 a, rfl, rfl⟩))
      (is_or_shl (by decide) (by omega) (by omega) (is_asNum (w := .b8) ?_ ?_ (is_iff.2 ⟨digit 6 b, rfl, rfl⟩))
      (is_asNum (w := .b8) ?_ ?_ (is_iff.2 ⟨digit 6 c, rfl, rfl⟩))) <;> simp only [BitWidth.bits] <;> omega
  obtain ⟨r, hr, hr'⟩ := is_iff.1 h
  rw [bind_ok_eq hr, hr']; rfl

theorem sends_4 (v : Value) (a b c d : UInt8) (hv : v.coerceNominal = .tuple [digit 3 a, digit 6 b, digit 6 c, digit 6 d]) :
    Sends (lambdaTuple ["x3", "x2", "x1", "x0"] (shift64 (.var "x3") (.var "x2") (.var "x1") (.var "x0"))) s v
      (num .b32 (decode [a, b, c, d])) := by
  refine lambda_of (is_iff.2 ⟨num .b32 (decode [a, b, c, d]), ?_, rfl⟩)
  rw [Expr.eval, bind_ok_eq (var_single _ _ _)]
  have hm : v.matchesPat (.tuple (["x3", "x2", "x1", "x0"].map Pattern.binding)) =
      some [("x3", digit 3 a), ("x2", digit 6 b), ("x1", digit 6 c), ("x0", digit 6 d)] := by
    unfold Value.matchesPat; rw [hv]; rfl
  rw [hm]
  dsimp only
  have ha := a.toNat_lt
  have hb := b.toNat_lt
  have hc := c.toNat_lt
  have hd := d.toNat_lt
  have h : Is (shift64 (.var "x3") (.var "x2") (.var "x1") (.var "x0"))
      (Scope.withBindings (.single "tuple_var" v s) [("x3", digit 3 a), ("x2", digit 6 b), ("x1", digit 6 c), ("x0", digit 6 d)])
      (num .b32 (a.toNat % 8 * 2 ^ 18 + (b.toNat % 64 * 2 ^ 12 + (c.toNat % 64 * 2 ^ 6 + d.toNat % 64)))) := by
    refine is_or_shl (by decide) (by omega) (by omega) (is_asNum (w := .b8) ?_ ?_ (is_iff.2 ⟨digit 3 a, rfl, rfl⟩))
      (is_or_shl (by decide) (by omega) (by omega) (is_asNum (w := .b8) ?_ ?_ (is_iff.2 ⟨digit 6 b, rfl, rfl⟩))
      (is_or_shl (by decide) (by omega) (by omega) (is_asNum (w := .b8) ?_ ?_ (is_iff.2 ⟨digit 6 c, rfl, rfl⟩))
      (is_asNum (w := .b8) ?_ ?_ (is_iff.2 ⟨digit 6 d, rfl, rfl⟩)))) <;> simp only [BitWidth.bits] <;> omega
  obtain ⟨r, hr, hr'⟩ := is_iff.1 h
  rw [bind_ok_eq hr, hr']; rfl

end

theorem Codes.of {f : Format} {e : Expr} {Fs : List (List (Nat × Nat))} (L : Scope Format → List UInt8 → Value → Prop) (h : Reads m f L)
    (hl : ∀ s u v, L s u v → (∃ F ∈ Fs, Within F u) ∧ Sends e s v (num .b32 (decode u)))
    (hf : ∀ s F u, F ∈ Fs → Within F u → ∃ v, L s u v) (hw : ∀ u, Word m f u ↔ ∃ F ∈ Fs, Within F u) (ht : Total m f) :
    Nonempty (Codes m (.map f e) Fs) := by
  refine ⟨_, reads_map_of h (g := fun u => num .b32 (decode u)) fun s u v hv => (hl s u v hv).2, ?_, ?_, fun u => ?_,
    total_map h ht fun s u v hv => ⟨_, (hl s u v hv).2⟩⟩
  · rintro s u _ ⟨v, hv, rfl⟩
    exact ⟨(hl s u v hv).1, rfl⟩
  · intro s F u hF hu
    obtain ⟨v, hv⟩ := hf s F u hF hu
    exact ⟨_, v, hv, rfl⟩
  · rw [← hw u]
    exact spells_map (W := fun u => Word m f u) (fun _ => Iff.rfl) u

theorem within_1 {r : Nat × Nat} {u : List UInt8} : Within [r] u ↔ ∃ b, u = [b] ∧ (r.1 ≤ b.toNat ∧ b.toNat ≤ r.2) := by
  constructor
  · rintro ⟨b, _, rfl, h, rfl⟩; exact ⟨b, rfl, h⟩
  · rintro ⟨b, rfl, h⟩; exact ⟨b, [], rfl, h, rfl⟩

theorem ascii_contains (b : UInt8) : (validAscii.intersection (ByteSet.singleton 0).complement).contains b = true ↔
    (1 ≤ b.toNat ∧ b.toNat ≤ 0x7F) := by
  have : ∀ n : Fin 256, (validAscii.intersection (ByteSet.singleton 0).complement).contains (UInt8.ofNat n.val) =
      (decide (1 ≤ n.val) && decide (n.val ≤ 0x7F)) := by decide +kernel
  have h := this ⟨b.toNat, b.toNat_lt⟩
  dsimp only at h
  rw [UInt8.ofNat_toNat] at h
  rw [h]; simp

theorem codes_1 : Nonempty (Codes m utf81 [[(0x01, 0x7F)]]) := by
  refine Codes.of _ (reads_byte _) ?_ ?_ ?_ (total_byte _)
  · rintro s u v ⟨b, rfl, hb, rfl⟩
    refine ⟨⟨_, .head _, within_1.2 ⟨b, rfl, (ascii_contains b).1 hb⟩⟩, ?_⟩
    refine lambda_of (is_asNum (w := .b8) b.toNat_lt (Nat.lt_trans b.toNat_lt (by decide)) ?_)
    show Is _ _ (num .b8 b.toNat)
    rw [← u8_num]
    exact is_var
  · intro s F u hF hu
    rw [List.mem_singleton] at hF
    subst hF
    obtain ⟨b, rfl, hb⟩ := within_1.1 hu
    exact ⟨_, b, rfl, (ascii_contains b).2 hb, rfl⟩
  · intro u
    rw [spells_byte _ u]
    constructor
    · rintro ⟨b, rfl, hb⟩; exact ⟨_, .head _, within_1.2 ⟨b, rfl, (ascii_contains b).1 hb⟩⟩
    · rintro ⟨F, hF, hu⟩
      rw [List.mem_singleton] at hF
      subst hF
      obtain ⟨b, rfl, hb⟩ := within_1.1 hu
      exact ⟨b, rfl, (ascii_contains b).2 hb⟩

theorem digit_tail {l : Nat} (h0 : m.items[l]? = some ⟨[], [], utf8Tail⟩) : Digit m (tail l) (0x80, 0xBF) 6 :=
  digit_item h0 (digit_in 0x80 0xBF (by decide) rfl)

theorem total_drop (bs : ByteSet) {n : Nat} (p : Nat) (hp : p ≤ 8) (h : dropMasks.getD n 0 = 2 ^ p - 1) :
    Total m (dropMsb n (.byte bs)) :=
  total_map (reads_byte bs) (total_byte bs) fun s u v ⟨b, _, _, hv⟩ => by subst hv; exact ⟨_, sends_mask s b hp h⟩

theorem total_tail {l : Nat} (h0 : m.items[l]? = some ⟨[], [], utf8Tail⟩) : Total m (tail l) :=
  total_item h0 (total_drop _ 6 (by decide) rfl)

theorem codes_2 {l : Nat} (h0 : m.items[l]? = some ⟨[], [], utf8Tail⟩) :
    Nonempty (Codes m (utf82 l) [[(0xC2, 0xDF), (0x80, 0xBF)]]) := by
  have hd : Digits m [dropMsb 3 (byteIn 0xC2 0xDF), tail l] [(0xC2, 0xDF), (0x80, 0xBF)] [5, 6] :=
    digits_cons (digit_in 0xC2 0xDF (by decide) rfl) (digits_cons (digit_tail h0) digits_nil)
  refine Codes.of _ (reads_digits hd) ?_ ?_ ?_ (total_tuple ?_)
  · rintro s u v ⟨hw, rfl⟩
    refine ⟨⟨_, .head _, hw⟩, ?_⟩
    obtain ⟨a, _, rfl, _, b, _, rfl, _, rfl⟩ := hw
    exact sends_2 s _ a b rfl
  · intro s F u hF hu
    rw [List.mem_singleton] at hF
    subst hF
    exact ⟨_, hu, rfl⟩
  · intro u
    rw [word_tuple, hd.2 u]; simp
  · intro f hf
    simp only [List.mem_cons, List.not_mem_nil, or_false] at hf
    rcases hf with rfl | rfl
    · exact total_drop _ 5 (by decide) rfl
    · exact total_tail h0

/-- alternatives that are tuples of digits -/
theorem reads_alts {fss : List (List Format)} {Fs : List (List (Nat × Nat))} {ps : List Nat} (hl : fss.length = Fs.length)
    (h : ∀ (i : Nat) fs F, fss[i]? = some fs → Fs[i]? = some F → Digits m fs F ps) :
    Reads m (.union (fss.map Format.tuple)) (fun _ u w => ∃ i v, i < (fss.map Format.tuple).length ∧
      (∃ F, Fs[i]? = some F ∧ Num F ps u v) ∧ w = .branch i v) ∧
    ∀ u, Word m (.union (fss.map Format.tuple)) u ↔ ∃ F ∈ Fs, Within F u := by
  constructor
  · refine reads_union (P := fun i _ u v => ∃ F, Fs[i]? = some F ∧ Num F ps u v) ?_
    intro i f hf
    rw [List.getElem?_map, Option.map_eq_some_iff] at hf
    obtain ⟨fs, hfs, rfl⟩ := hf
    have hi : i < Fs.length := by rw [← hl]; exact (List.getElem?_eq_some_iff.1 hfs).1
    refine (reads_digits (h i fs _ hfs (List.getElem?_eq_getElem hi))).congr fun _ u v => ?_
    constructor
    · intro hn; exact ⟨_, List.getElem?_eq_getElem hi, hn⟩
    · rintro ⟨F, hF, hn⟩
      rw [List.getElem?_eq_getElem hi] at hF
      cases hF; exact hn
  · intro u
    rw [spells_union u]
    constructor
    · rintro ⟨f, hf, hw⟩
      obtain ⟨fs, hfs, rfl⟩ := List.mem_map.1 hf
      obtain ⟨i, hi⟩ := List.mem_iff_getElem?.1 hfs
      have hi' : i < Fs.length := by rw [← hl]; exact (List.getElem?_eq_some_iff.1 hi).1
      exact ⟨_, List.getElem_mem hi', ((h i fs _ hi (List.getElem?_eq_getElem hi')).2 u).1 (word_tuple.1 hw)⟩
    · rintro ⟨F, hF, hw⟩
      obtain ⟨i, hi⟩ := List.mem_iff_getElem?.1 hF
      have hi' : i < fss.length := by rw [hl]; exact (List.getElem?_eq_some_iff.1 hi).1
      exact ⟨_, List.mem_map_of_mem (List.getElem_mem hi'),
        word_tuple.2 (((h i _ F (List.getElem?_eq_getElem hi') hi).2 u).2 hw)⟩

theorem codes_alts {fss : List (List Format)} {Fs : List (List (Nat × Nat))} {ps : List Nat} {e : Expr} (hl : fss.length = Fs.length)
    (h : ∀ (i : Nat) fs F, fss[i]? = some fs → Fs[i]? = some F → Digits m fs F ps)
    (he : ∀ (s : Scope Format) F u v, F ∈ Fs → Within F u → v.coerceNominal = .tuple (List.zipWith digit ps u) → Sends e s v (num .b32 (decode u)))
    (ht : ∀ fs ∈ fss, ∀ f ∈ fs, Total m f) :
    Nonempty (Codes m (.map (.union (fss.map Format.tuple)) e) Fs) := by
  obtain ⟨h1, h2⟩ := reads_alts hl h
  refine Codes.of _ h1 ?_ ?_ h2 (total_union fun f hf => ?_)
  · rintro s u _ ⟨i, _, _, ⟨F, hF, hw, rfl⟩, rfl⟩
    exact ⟨⟨F, List.mem_of_getElem? hF, hw⟩, he s F u _ (List.mem_of_getElem? hF) hw rfl⟩
  · intro s F u hF hu
    obtain ⟨i, hi⟩ := List.mem_iff_getElem?.1 hF
    have hi' : i < fss.length := by rw [hl]; exact (List.getElem?_eq_some_iff.1 hi).1
    exact ⟨_, i, _, by rwa [List.length_map], ⟨F, hi, hu, rfl⟩, rfl⟩
  · obtain ⟨fs, hfs, rfl⟩ := List.mem_map.1 hf
    exact total_tuple (ht fs hfs)

theorem codes_3 {l : Nat} (h0 : m.items[l]? = some ⟨[], [], utf8Tail⟩) :
    Nonempty (Codes m (utf83 l) [[(0xE0, 0xE0), (0xA0, 0xBF), (0x80, 0xBF)], [(0xE1, 0xEC), (0x80, 0xBF), (0x80, 0xBF)],
      [(0xED, 0xED), (0x80, 0x9F), (0x80, 0xBF)], [(0xEE, 0xEF), (0x80, 0xBF), (0x80, 0xBF)]]) := by
  have ht := digit_tail h0
  refine codes_alts (ps := [4, 6, 6]) (fss := [[dropMsb 4 (isByte 0xE0), dropMsb 2 (byteIn 0xA0 0xBF), tail l],
    [dropMsb 4 (byteIn 0xE1 0xEC), tail l, tail l], [dropMsb 4 (isByte 0xED), dropMsb 2 (byteIn 0x80 0x9F), tail l],
    [dropMsb 4 (byteIn 0xEE 0xEF), tail l, tail l]]) rfl ?_ ?_ ?_
  · intro i fs F h1 h2
    match i with
    | 0 => cases h1; cases h2; exact digits_cons (digit_is 0xE0 (by decide) rfl) (digits_cons (digit_in 0xA0 0xBF (by decide) rfl)
        (digits_cons ht digits_nil))
    | 1 => cases h1; cases h2; exact digits_cons (digit_in 0xE1 0xEC (by decide) rfl) (digits_cons ht (digits_cons ht digits_nil))
    | 2 => cases h1; cases h2; exact digits_cons (digit_is 0xED (by decide) rfl) (digits_cons (digit_in 0x80 0x9F (by decide) rfl)
        (digits_cons ht digits_nil))
    | 3 => cases h1; cases h2; exact digits_cons (digit_in 0xEE 0xEF (by decide) rfl) (digits_cons ht (digits_cons ht digits_nil))
    | i + 4 => cases h1
  · intro s F u v hF hw hv
    have : ∃ a b c, u = [a, b, c] := by
      simp only [List.mem_cons, List.not_mem_nil, or_false] at hF
      rcases hF with rfl | rfl | rfl | rfl <;> (obtain ⟨a, _, rfl, _, b, _, rfl, _, c, _, rfl, _, rfl⟩ := hw; exact ⟨a, b, c, rfl⟩)
    obtain ⟨a, b, c, rfl⟩ := this
    exact sends_3 s v a b c hv
  · have ht := total_tail h0
    simp only [List.mem_cons, List.not_mem_nil, or_false]
    rintro fs (rfl | rfl | rfl | rfl) f hf <;> simp only [List.mem_cons, List.not_mem_nil, or_false] at hf <;>
      rcases hf with rfl | rfl | rfl <;>
      first
      | exact ht
      | exact total_drop _ 4 (by decide) rfl
      | exact total_drop _ 6 (by decide) rfl

theorem codes_4 {l : Nat} (h0 : m.items[l]? = some ⟨[], [], utf8Tail⟩) :
    Nonempty (Codes m (utf84 l) [[(0xF0, 0xF0), (0x90, 0xBF), (0x80, 0xBF), (0x80, 0xBF)],
      [(0xF1, 0xF3), (0x80, 0xBF), (0x80, 0xBF), (0x80, 0xBF)], [(0xF4, 0xF4), (0x80, 0x8F), (0x80, 0xBF), (0x80, 0xBF)]]) := by
  have ht := digit_tail h0
  refine codes_alts (ps := [3, 6, 6, 6]) (fss := [[dropMsb 5 (isByte 0xF0), dropMsb 2 (byteIn 0x90 0xBF), tail l, tail l],
    [dropMsb 5 (byteIn 0xF1 0xF3), tail l, tail l, tail l],
    [dropMsb 5 (isByte 0xF4), dropMsb 2 (byteIn 0x80 0x8F), tail l, tail l]]) rfl ?_ ?_ ?_
  · intro i fs F h1 h2
    match i with
    | 0 => cases h1; cases h2; exact digits_cons (digit_is 0xF0 (by decide) rfl) (digits_cons (digit_in 0x90 0xBF (by decide) rfl)
        (digits_cons ht (digits_cons ht digits_nil)))
    | 1 => cases h1; cases h2; exact digits_cons (digit_in 0xF1 0xF3 (by decide) rfl) (digits_cons ht (digits_cons ht
        (digits_cons ht digits_nil)))
    | 2 => cases h1; cases h2; exact digits_cons (digit_is 0xF4 (by decide) rfl) (digits_cons (digit_in 0x80 0x8F (by decide) rfl)
        (digits_cons ht (digits_cons ht digits_nil)))
    | i + 3 => cases h1
  · intro s F u v hF hw hv
    have : ∃ a b c d, u = [a, b, c, d] := by
      simp only [List.mem_cons, List.not_mem_nil, or_false] at hF
      rcases hF with rfl | rfl | rfl <;>
        (obtain ⟨a, _, rfl, _, b, _, rfl, _, c, _, rfl, _, d, _, rfl, _, rfl⟩ := hw; exact ⟨a, b, c, d, rfl⟩)
    obtain ⟨a, b, c, d, rfl⟩ := this
    exact sends_4 s v a b c d hv
  · have ht := total_tail h0
    simp only [List.mem_cons, List.not_mem_nil, or_false]
    rintro fs (rfl | rfl | rfl) f hf <;> simp only [List.mem_cons, List.not_mem_nil, or_false] at hf <;>
      rcases hf with rfl | rfl | rfl | rfl <;>
      first
      | exact ht
      | exact total_drop _ 3 (by decide) rfl
      | exact total_drop _ 6 (by decide) rfl

/-! ### characters -/

/-- A format whose derivations are those of the encodings of the characters `P`, with the character as value. -/
structure Reads1 (m : Module) (f : Format) (P : Char → Prop) where
  L : Scope Format → List UInt8 → Value → Prop
  reads : Reads m f L
  value : ∀ s u v, L s u v → ∃ ch, P ch ∧ u = String.utf8EncodeChar ch ∧ v.coerceMapped = .char ch
  found : ∀ s ch, P ch → ∃ v, L s (String.utf8EncodeChar ch) v
  words : ∀ u, Word m f u ↔ ∃ ch, P ch ∧ u = String.utf8EncodeChar ch
  total : Total m f

theorem nz_form (u : List UInt8) : (∃ F ∈ forms.tail, Within F u) ↔ ∃ ch, ch ≠ '\x00' ∧ u = String.utf8EncodeChar ch := by
  constructor
  · rintro ⟨F, hF, hw⟩
    obtain ⟨h1, h2⟩ := form_encode (List.mem_of_mem_tail hF) hw
    refine ⟨_, ?_, h2.symm⟩
    intro h0
    rw [h0] at h2
    have : u = [0] := h2.symm
    subst this
    have : ∀ F ∈ forms.tail, 0 < (F.headD (1, 0)).1 := by decide
    cases F with
    | nil => cases hw
    | cons r rs =>
      obtain ⟨b, v, hbv, hb, _⟩ := hw
      cases hbv
      have : 0 < r.1 := this _ hF
      have hb := hb.1
      simp at hb
      omega
  · rintro ⟨ch, h0, rfl⟩
    obtain ⟨⟨F, hF, hw⟩, hd⟩ := encode_form ch
    refine ⟨F, ?_, hw⟩
    have : F = [(0, 0)] ∨ F ∈ forms.tail := List.mem_cons.1 hF
    rcases this with rfl | h
    · exfalso
      obtain ⟨b, hb, h⟩ := within_1.1 hw
      rw [hb] at hd
      refine h0 (Char.ext (UInt32.toNat_inj.1 ?_))
      show ch.toNat = 0
      rw [← hd, decode]
      dsimp only at h; omega
    · exact h

theorem char_nz {l : Nat} (h0 : m.items[l]? = some ⟨[], [], utf8Tail⟩) : Nonempty (Reads1 m (utf8CharNz l) fun ch => ch ≠ '\x00') := by
  obtain ⟨c1⟩ := codes_1 (m := m)
  obtain ⟨c2⟩ := codes_2 h0
  obtain ⟨c3⟩ := codes_3 h0
  obtain ⟨c4⟩ := codes_4 h0
  have hr : Reads m (.union [utf81, utf82 l, utf83 l, utf84 l]) _ := reads_union (P := fun i s u v => match i with
    | 0 => c1.L s u v
    | 1 => c2.L s u v
    | 2 => c3.L s u v
    | _ => c4.L s u v) (by
      intro i f hf
      match i with
      | 0 => cases hf; exact c1.reads
      | 1 => cases hf; exact c2.reads
      | 2 => cases hf; exact c3.reads
      | 3 => cases hf; exact c4.reads
      | i + 4 => cases hf)
  have hval : ∀ s u v, (∃ i w, i < 4 ∧ (match i with
      | 0 => c1.L s u w
      | 1 => c2.L s u w
      | 2 => c3.L s u w
      | _ => c4.L s u w) ∧ v = Value.branch i w) → (∃ F ∈ forms.tail, Within F u) ∧ v.coerceMapped = num .b32 (decode u) := by
    rintro s u _ ⟨i, w, hi, hw, rfl⟩
    have key : ∀ {Fs : List (List (Nat × Nat))} (i : Nat), (∀ F ∈ Fs, F ∈ forms.tail) → ((∃ F ∈ Fs, Within F u) ∧ w.coerceMapped = num .b32 (decode u)) →
        (∃ F ∈ forms.tail, Within F u) ∧ (Value.branch i w).coerceMapped = num .b32 (decode u) := by
      rintro Fs i h ⟨⟨F, hF, h1⟩, h2⟩
      exact ⟨⟨F, h F hF, h1⟩, h2⟩
    match i, hi, hw with
    | 0, _, hw => exact key 0 (by decide) (c1.value s u w hw)
    | 1, _, hw => exact key 1 (by decide) (c2.value s u w hw)
    | 2, _, hw => exact key 2 (by decide) (c3.value s u w hw)
    | 3, _, hw => exact key 3 (by decide) (c4.value s u w hw)
    | i + 4, hi, _ => omega
  have hfound : ∀ s F u, F ∈ forms.tail → Within F u → ∃ v, ∃ i w, i < 4 ∧ (match i with
      | 0 => c1.L s u w
      | 1 => c2.L s u w
      | 2 => c3.L s u w
      | _ => c4.L s u w) ∧ v = Value.branch i w := by
    intro s F u hF hw
    simp only [forms, List.tail_cons, List.mem_cons, List.not_mem_nil, or_false] at hF
    rcases hF with rfl | rfl | rfl | rfl | rfl | rfl | rfl | rfl | rfl
    · obtain ⟨w, hw⟩ := c1.found s _ u (by decide) hw
      exact ⟨_, 0, w, by decide, hw, rfl⟩
    · obtain ⟨w, hw⟩ := c2.found s _ u (by decide) hw
      exact ⟨_, 1, w, by decide, hw, rfl⟩
    · obtain ⟨w, hw⟩ := c3.found s _ u (by decide) hw
      exact ⟨_, 2, w, by decide, hw, rfl⟩
    · obtain ⟨w, hw⟩ := c3.found s _ u (by decide) hw
      exact ⟨_, 2, w, by decide, hw, rfl⟩
    · obtain ⟨w, hw⟩ := c3.found s _ u (by decide) hw
      exact ⟨_, 2, w, by decide, hw, rfl⟩
    · obtain ⟨w, hw⟩ := c3.found s _ u (by decide) hw
      exact ⟨_, 2, w, by decide, hw, rfl⟩
    · obtain ⟨w, hw⟩ := c4.found s _ u (by decide) hw
      exact ⟨_, 3, w, by decide, hw, rfl⟩
    · obtain ⟨w, hw⟩ := c4.found s _ u (by decide) hw
      exact ⟨_, 3, w, by decide, hw, rfl⟩
    · obtain ⟨w, hw⟩ := c4.found s _ u (by decide) hw
      exact ⟨_, 3, w, by decide, hw, rfl⟩
  have hsend : ∀ (s : Scope Format) u v, (∃ F ∈ forms.tail, Within F u) → v.coerceMapped = num .b32 (decode u) →
      Sends (.lambda "codepoint" (.asChar (.var "codepoint"))) s v (.char (Char.ofNat (decode u))) := by
    rintro s u v ⟨F, hF, hw⟩ hv
    refine lambda_of (is_asChar (form_encode (List.mem_of_mem_tail hF) hw).1 ?_)
    rw [← hv]; exact is_var
  refine ⟨_, reads_map_of hr (g := fun u => .char (Char.ofNat (decode u))) fun s u v hv => ?_, ?_, ?_, ?_, total_map hr (total_union ?_) fun s u v hv => ?_⟩
  · obtain ⟨h1, h2⟩ := hval s u v hv
    exact hsend s u v h1 h2
  · rintro s u _ ⟨v, hv, rfl⟩
    obtain ⟨h1, h2⟩ := hval s u v hv
    obtain ⟨ch, h3, rfl⟩ := (nz_form u).1 h1
    refine ⟨ch, h3, rfl, ?_⟩
    show Value.char _ = _
    rw [(encode_form ch).2, Char.ofNat_toNat]
  · intro s ch h
    obtain ⟨F, hF, hw⟩ := (nz_form _).2 ⟨ch, h, rfl⟩
    obtain ⟨v, hv⟩ := hfound s F _ hF hw
    exact ⟨_, v, hv, rfl⟩
  · intro u
    rw [← nz_form u, utf8CharNz, spells_map spells_union u]
    constructor
    · rintro ⟨f, hf, hw⟩
      have key : ∀ {Fs : List (List (Nat × Nat))}, (∀ F ∈ Fs, F ∈ forms.tail) → (∃ F ∈ Fs, Within F u) → ∃ F ∈ forms.tail, Within F u := by
        rintro Fs h ⟨F, hF, h1⟩
        exact ⟨F, h F hF, h1⟩
      simp only [List.mem_cons, List.not_mem_nil, or_false] at hf
      rcases hf with rfl | rfl | rfl | rfl
      · exact key (by decide) ((c1.words u).1 hw)
      · exact key (by decide) ((c2.words u).1 hw)
      · exact key (by decide) ((c3.words u).1 hw)
      · exact key (by decide) ((c4.words u).1 hw)
    · rintro ⟨F, hF, hw⟩
      simp only [forms, List.tail_cons, List.mem_cons, List.not_mem_nil, or_false] at hF
      rcases hF with rfl | rfl | rfl | rfl | rfl | rfl | rfl | rfl | rfl
      · exact ⟨_, .head _, (c1.words u).2 ⟨_, by decide, hw⟩⟩
      · exact ⟨_, .tail _ (.head _), (c2.words u).2 ⟨_, by decide, hw⟩⟩
      · exact ⟨_, .tail _ (.tail _ (.head _)), (c3.words u).2 ⟨_, by decide, hw⟩⟩
      · exact ⟨_, .tail _ (.tail _ (.head _)), (c3.words u).2 ⟨_, by decide, hw⟩⟩
      · exact ⟨_, .tail _ (.tail _ (.head _)), (c3.words u).2 ⟨_, by decide, hw⟩⟩
      · exact ⟨_, .tail _ (.tail _ (.head _)), (c3.words u).2 ⟨_, by decide, hw⟩⟩
      · exact ⟨_, .tail _ (.tail _ (.tail _ (.head _))), (c4.words u).2 ⟨_, by decide, hw⟩⟩
      · exact ⟨_, .tail _ (.tail _ (.tail _ (.head _))), (c4.words u).2 ⟨_, by decide, hw⟩⟩
      · exact ⟨_, .tail _ (.tail _ (.tail _ (.head _))), (c4.words u).2 ⟨_, by decide, hw⟩⟩
  · simp only [List.mem_cons, List.not_mem_nil, or_false]
    rintro f (rfl | rfl | rfl | rfl)
    · exact c1.total
    · exact c2.total
    · exact c3.total
    · exact c4.total
  · obtain ⟨h1, h2⟩ := hval s u v hv
    exact ⟨_, hsend s u v h1 h2⟩

theorem Reads1.item {l : Nat} {f : Format} {P : Char → Prop} (hi : m.items[l]? = some ⟨[], [], f⟩) (h : Reads1 m f P) :
    Nonempty (Reads1 m (.itemVar l [] []) P) :=
  ⟨_, reads_item hi h.reads, fun _ u v hv => h.value _ u v hv, fun _ ch hc => h.found _ ch hc, fun u => spells_item hi h.words u,
    total_item hi h.total⟩

theorem char_any {l : Nat} (h0 : m.items[l]? = some ⟨[], [], utf8Tail⟩) (h1 : m.items[l + 1]? = some ⟨[], [], utf8CharNz l⟩) :
    Nonempty (Reads1 m (utf8Char l) fun _ => True) := by
  obtain ⟨c⟩ := (char_nz h0).elim (Reads1.item h1)
  have hz : Reads m (.map (isByte 0) (.lambda "_" (.asChar (lit .b32 0)))) fun s u w => ∃ v, (∃ b, u = [b] ∧
      (ByteSet.fromIter [0]).contains b = true ∧ v = Value.u8 b) ∧ w = .mapped v (.char '\x00') :=
    reads_map_of (g := fun _ => .char '\x00') (reads_byte _) fun s u v _ => lambda_of (is_asChar (n := 0) (by decide) is_lit)
  have hr : Reads m (utf8Char l) _ := reads_union (P := fun i s u v => match i with
    | 0 => ∃ x, (∃ b, u = [b] ∧ (ByteSet.fromIter [0]).contains b = true ∧ x = Value.u8 b) ∧ v = .mapped x (.char '\x00')
    | _ => c.L s u v) (by
      intro i f hf
      match i with
      | 0 => cases hf; exact hz
      | 1 => cases hf; exact c.reads
      | i + 2 => cases hf)
  have h00 : ∀ b, (ByteSet.fromIter [0]).contains b = true ↔ b = 0 := by
    intro b; rw [ByteSet.C01_contains_fromIter, List.mem_singleton]
  have e0 : String.utf8EncodeChar '\x00' = [0] := rfl
  refine ⟨_, hr, ?_, ?_, ?_, total_union ?_⟩
  · rintro s u _ ⟨i, w, hi, hw, rfl⟩
    match i with
    | 0 =>
      obtain ⟨_, ⟨b, rfl, hb, rfl⟩, rfl⟩ := hw
      rw [(h00 b).1 hb]
      exact ⟨'\x00', trivial, rfl, rfl⟩
    | 1 =>
      obtain ⟨ch, _, h3, h4⟩ := c.value s u w hw
      exact ⟨ch, trivial, h3, h4⟩
    | i + 2 => exact absurd hi (by simp)
  · intro s ch _
    by_cases h : ch = '\x00'
    · subst h
      exact ⟨_, 0, _, Nat.zero_lt_two, ⟨_, ⟨0, rfl, by decide +kernel, rfl⟩, rfl⟩, rfl⟩
    · obtain ⟨v, hv⟩ := c.found s ch h
      exact ⟨_, 1, v, Nat.one_lt_two, hv, rfl⟩
  · intro u
    rw [utf8Char, spells_union u]
    constructor
    · rintro ⟨f, hf, hw⟩
      simp only [List.mem_cons, List.not_mem_nil, or_false] at hf
      rcases hf with rfl | rfl
      · obtain ⟨b, rfl, hb⟩ := (spells_map (spells_byte _) u).1 hw
        rw [(h00 b).1 hb]
        exact ⟨'\x00', trivial, rfl⟩
      · obtain ⟨ch, _, h⟩ := (c.words u).1 hw
        exact ⟨ch, trivial, h⟩
    · rintro ⟨ch, _, rfl⟩
      by_cases h : ch = '\x00'
      · subst h
        exact ⟨_, .head _, (spells_map (spells_byte _) _).2 ⟨0, rfl, by decide +kernel⟩⟩
      · exact ⟨_, .tail _ (.head _), (c.words _).2 ⟨ch, h, rfl⟩⟩
  · simp only [List.mem_cons, List.not_mem_nil, or_false]
    rintro f (rfl | rfl)
    · exact total_map (reads_byte _) (total_byte _) fun s u v _ => ⟨_, lambda_of (is_asChar (n := 0) (by decide) is_lit)⟩
    · exact c.total

end Text
end Doodle
