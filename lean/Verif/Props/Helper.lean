import Verif.Lemmas.Helper

/-! Properties C51 (packed bit fields), C52 (formats of integers and bytes) and C53 (conditions and expressions). -/

namespace Doodle
namespace Helper

open Num (BitWidth)

section
variable [DecidableEq Next]

/-! ### C51 -/

/-- The fields of a packed word: the word is read as big-endian, and cut into the fields in their order, starting from
the most significant bit; the record has exactly the named fields, in order.  Missing are the fields that are the whole
word, and the check of the reserved segments. -/
theorem C51_fields_partial (w : BitWidth) (hw : w = .b8 ∨ w = .b16) (fs : List BitField) (hf : Fields w fs) :
    ∃ f, bitFields w fs = .ok f ∧
      Behaves f fun _ c => reads (w.bits / 8) (fun bs => recordOf (cut w fs (bs.flatMap msbFirst))) c := by
  refine ⟨_, ?_, packed_behaves hf (g := packedWord w) (n := w.bits / 8)
    (k := fun bs => if w = .b8 then .u8 (bs.headD 0) else wordValue w true bs) ?_ ?_⟩
  · unfold bitFields
    rw [if_pos hf.total]
    refine (bind_ok_eq (bitLoop_eq fs 0 [] (by rw [Nat.zero_add, hf.total]; exact Nat.le_refl _) hf.part)).trans ?_
    rw [List.nil_append]; rfl
  · rcases hw with rfl | rfl
    · exact byte_behaves
    · exact word_behaves .b16 true
  · intro bs hbs
    have hlen : ∀ bs : List UInt8, (bs.flatMap msbFirst).length = 8 * bs.length := by
      intro bs
      induction bs with
      | nil => rfl
      | cons b bs ih => rw [List.flatMap_cons, List.length_append, ih, msbFirst_length, List.length_cons]; omega
    rw [bits_binary]
    refine ⟨by rw [hlen, hbs]; rcases hw with rfl | rfl <;> rfl, ?_⟩
    rcases hw with rfl | rfl
    · rcases bs with _ | ⟨b, _ | ⟨b', bs⟩⟩
      · cases hbs
      · show Value.u8 b = _
        rw [show bigEnd [b] = b.toNat by simp [bigEnd], num_eq b.toNat_lt]; rfl
      · cases hbs
    · rfl

/-- The total width is checked. -/
theorem C51_total (w : BitWidth) (fs : List BitField) (h : (fs.map BitField.width).sum ≠ w.bits) :
    bitFields w fs = .panic := by
  unfold bitFields
  rw [if_neg h]

/-- Two fields of four bits: the first is the high half of the byte, the second the low half. -/
theorem C51_pair (hi lo : String) (hhi : Record.autoLabel hi = some (hi, true))
    (hlo : Record.autoLabel lo = some (lo, true)) (hne : hi ≠ lo) :
    ∃ f, u4Pair hi lo = .ok f ∧ Behaves f fun _ c => match unread c with
      | [] => .err (.overbyte c.offset)
      | b :: _ => .ok ⟨(.record [(hi, .u8 (b / 16)), (lo, .u8 (b % 16))], ⟨c.input, c.offset + 1⟩), []⟩ := by
  have hf : Fields .b8 [.bits hi 4, .bits lo 4] := by
    refine ⟨rfl, ?_, ?_, ?_⟩
    · intro f hf
      rcases List.mem_cons.1 hf with rfl | hf
      · exact ⟨(by decide : 0 < 4), (by decide : 4 < 8)⟩
      · cases List.mem_singleton.1 hf; exact ⟨(by decide : 0 < 4), (by decide : 4 < 8)⟩
    · intro f hf x hx
      rcases List.mem_cons.1 hf with rfl | hf
      · cases hx; exact hhi
      · cases List.mem_singleton.1 hf; cases hx; exact hlo
    · exact List.nodup_cons.2 ⟨fun h => hne (List.mem_singleton.1 h), List.nodup_cons.2 ⟨nofun, List.nodup_nil⟩⟩
  obtain ⟨f, h1, h2⟩ := C51_fields_partial .b8 (.inl rfl) _ hf
  refine ⟨f, h1, ?_⟩
  have : (fun (_ : Scope Decoder) c => reads (BitWidth.b8.bits / 8)
      (fun bs => recordOf (cut .b8 [.bits hi 4, .bits lo 4] (bs.flatMap msbFirst))) c) = fun _ c => match unread c with
      | [] => .err (.overbyte c.offset)
      | b :: _ => .ok ⟨(.record [(hi, .u8 (b / 16)), (lo, .u8 (b % 16))], ⟨c.input, c.offset + 1⟩), []⟩ := by
    funext _ c
    unfold reads
    rcases hu : unread c with _ | ⟨b, rest⟩
    · rw [if_neg (by decide)]
      have : c.input.length ≤ c.offset := List.drop_eq_nil_iff.1 hu
      rw [show Nat.max c.offset c.input.length = c.offset from Nat.max_eq_left this]
    · rw [if_pos (by simp [BitWidth.bits])]
      have hb : ∀ b : Fin 256, binary (((List.range 8).map fun i => b.val.testBit (7 - i)).take 4) = b.val / 16 ∧
          binary ((((List.range 8).map fun i => b.val.testBit (7 - i)).drop 4).take 4) = b.val % 16 := by decide +kernel
      have hb := hb ⟨b.toNat, b.toNat_lt⟩
      have h1 : binary ((msbFirst b).take 4) = (b / 16).toNat := by
        refine hb.1.trans ?_
        rw [UInt8.toNat_div]; rfl
      have h2 : binary (((msbFirst b).drop 4).take 4) = (b % 16).toNat := by
        refine hb.2.trans ?_
        rw [UInt8.toNat_mod]; rfl
      have h3 : (List.take (BitWidth.b8.bits / 8) (b :: rest)).flatMap msbFirst = msbFirst b := by
        show [b].flatMap msbFirst = _
        simp
      dsimp only
      rw [h3]
      show Outcome.ok (WithErr.mk (recordOf [(hi, num .b8 (binary ((msbFirst b).take 4))),
        (lo, num .b8 (binary (((msbFirst b).drop 4).take 4)))], _) _) = _
      rw [h1, h2, num_eq (UInt8.toNat_lt _), num_eq (UInt8.toNat_lt _)]
      rfl
  rw [← this]
  exact h2

/-- Bits that a reserved segment declares to be zero are not checked: with the first four bits reserved, the byte 0xF5
decodes without an error, tolerated or not. -/
theorem C51_zero_refuted : ∃ fs f b v, Fields .b8 fs ∧ bitFields .b8 fs = .ok f ∧ ¬ zeroed fs (msbFirst b) ∧
    ∀ (m : Module) (o : BuildOpts) (next : Next) (st : CompSt), ∃ d, compileFormat m o f next st = .ok (d, st) ∧
      ∀ env s, Ends env d s (.new [b]) (.ok ⟨(v, ⟨[b], 1⟩), []⟩) := by
  have hf : Fields .b8 [.reserved 4 true, .bits "x" 4] := by
    refine ⟨rfl, by decide, ?_, by decide⟩
    intro f hf x hx
    simp only [List.mem_cons, List.not_mem_nil, or_false] at hf
    rcases hf with rfl | rfl <;> cases hx
    decide +kernel
  obtain ⟨f, h1, h2⟩ := C51_fields_partial .b8 (.inl rfl) _ hf
  refine ⟨_, f, 0xF5, .record [("x", .u8 5)], hf, h1, ?_, fun m o next st => ?_⟩
  · rintro ⟨h, _⟩
    exact absurd (h true (by decide +kernel)) (by decide)
  · obtain ⟨d, hd, hr⟩ := h2 m o next st
    exact ⟨d, hd, fun env s => hr env s (.new [0xF5])⟩

end

/-- A field that is the whole word cannot be made. -/
theorem C51_whole_refuted (x : String) : bitFields .b8 [.bits x 8] = .panic ∧ bitFields .b16 [.bits x 16] = .panic :=
  ⟨rfl, rfl⟩

/-- With a field of no bits at the start of the word the format compiles, and its decoder panics on each byte. -/
theorem C51_empty_refuted : ∃ (_ : DecidableEq Next) (f : Format) (d : Decoder) (st : CompSt),
    bitFields .b8 [.bits "z" 0, .bits "a" 4, .bits "b" 4] = .ok f ∧
    compileFormat .empty ⟨fun _ l => l, 10⟩ f .empty Compiler.new = .ok (d, st) ∧
    Decoder.parse ⟨[], fun _ => .panic⟩ 10 d .empty (.new [0]) = .panic :=
  ⟨fun _ _ => Classical.propDecidable _, _, _, _, rfl, rfl, rfl⟩

/-- a record of flags, a number and a reserved segment -/
example : Fields .b8 [.flag "a", .reserved 2 true, .bits "n" 4, .flag "b"] := by
  refine ⟨rfl, by decide, ?_, by decide⟩
  intro f hf x hx
  simp only [List.mem_cons, List.not_mem_nil, or_false] at hf
  rcases hf with rfl | rfl | rfl | rfl <;> cases hx <;> decide +kernel

example : cut .b8 [.flag "a", .reserved 2 true, .bits "n" 4, .flag "b"] (msbFirst 0b10010110) =
    [("a", .bool true), ("n", num .b8 0b1011), ("b", .bool false)] := rfl

/-! ### C52 -/

section
variable [DecidableEq Next]

/-- The unsigned integers of 16, 32 and 64 bits, big-endian and little-endian, and of 8 bits: as many bytes are read,
and they are the digits of the value, most or least significant first. -/
theorem C52_unsigned : (∀ (w : BitWidth) (be : Bool), Behaves (word w be) fun _ c => reads (w.bits / 8) (wordValue w be) c) ∧
    Behaves u8 fun _ c => reads 1 (fun bs => num .b8 (bigEnd bs)) c := by
  refine ⟨word_behaves, ?_⟩
  intro m o next st
  obtain ⟨d, hd, hr⟩ := byte_behaves m o next st
  refine ⟨d, by rw [u8, compileFormat]; exact hd, fun env s c => ?_⟩
  refine (congrArg (Ends env d s c) ?_).mp (hr env s c)
  dsimp only
  unfold reads
  by_cases hl : 1 ≤ (unread c).length
  · rw [if_pos hl, if_pos hl]
    have := bytes_len _ _ hl
    generalize (unread c).take 1 = bs at this
    rcases bs with _ | ⟨b, _ | ⟨b', bs⟩⟩
    · cases this
    · have h : bigEnd [b] = b.toNat := by simp [bigEnd]
      dsimp only
      rw [h, ← ofNat_byte _ b.toNat_lt, UInt8.ofNat_toNat]
      rfl
    · cases this
  · rw [if_neg hl, if_neg hl]

/-- The signed integers are the big-endian unsigned ones read as two's complement. -/
theorem C52_signed (w : BitWidth) : Behaves (signedWord w) fun _ c =>
    reads (w.bits / 8) (fun bs => .numeric ⟨twosComplement w (bigEnd bs), .concrete ⟨true, w⟩⟩) c := by
  unfold signedWord
  by_cases hw : w = .b8
  · subst hw
    rw [if_pos rfl]
    refine mapNumeric_signed C52_unsigned.2 fun bs hbs => ?_
    have := bigEnd_lt bs
    have hb : bigEnd bs < 2 ^ BitWidth.b8.bits := by rw [hbs] at this; exact this
    refine ⟨?_, hb⟩
    rw [num_eq hb]; rfl
  · rw [if_neg hw]
    refine mapNumeric_signed (word_behaves w true) fun bs hbs => ?_
    have := bigEnd_lt bs
    have hb : bigEnd bs < 2 ^ w.bits := by rw [hbs, ← bits_bytes] at this; exact this
    refine ⟨?_, hb⟩
    show (num w (bigEnd bs)).toStrict = _
    rw [num_eq hb]; rfl

/-- One given byte, or any byte but a given one. -/
theorem C52_byte (b : UInt8) :
    (Behaves (isByte b) fun _ c => match unread c with
      | [] => .err (.overbyte c.offset)
      | x :: _ => if x = b then .ok ⟨(.u8 b, ⟨c.input, c.offset + 1⟩), []⟩
        else .err (.unexpected x (ByteSet.fromIter [b]) (c.offset + 1))) ∧
    (Behaves (notByte b) fun _ c => match unread c with
      | [] => .err (.overbyte c.offset)
      | x :: _ => if x ≠ b then .ok ⟨(.u8 x, ⟨c.input, c.offset + 1⟩), []⟩
        else .err (.unexpected b (ByteSet.fromIter [b]).complement (c.offset + 1))) := by
  constructor <;> intro m o next st
  · refine ⟨.byte (ByteSet.fromIter [b]), by rw [isByte, compileFormat], fun env s c => ?_⟩
    refine (congrArg (Ends env _ s c) ?_).mp (byte_ends env (ByteSet.fromIter [b]) s c)
    dsimp only
    cases unread c with
    | nil => rfl
    | cons x rest =>
      simp only [contains_one, decide_eq_true_eq]
      by_cases hx : x = b
      · rw [if_pos hx, if_pos hx, hx]
      · rw [if_neg hx, if_neg hx]
  · refine ⟨.byte (ByteSet.fromIter [b]).complement, by rw [notByte, compileFormat], fun env s c => ?_⟩
    refine (congrArg (Ends env _ s c) ?_).mp (byte_ends env (ByteSet.fromIter [b]).complement s c)
    dsimp only
    cases unread c with
    | nil => rfl
    | cons x rest =>
      have : (ByteSet.fromIter [b]).complement.contains x = true ↔ x ≠ b := by
        rw [ByteSet.C01_contains_complement, contains_one]; simp
      by_cases hx : x = b
      · simp only [this]
        rw [if_neg (fun h => h hx), if_neg (fun h => h hx), hx]
      · simp only [this]
        rw [if_pos hx, if_pos hx]

/-- Given bytes one after the other, as a tuple or as a sequence: the input has to start with them, and then exactly
they are read. -/
theorem C52_bytes (bs : List UInt8) (m : Module) (o : BuildOpts) (next : Next) (st : CompSt) :
    (∃ d, compileFormat m o (isBytes bs) next st = .ok (d, st) ∧ ∀ env s c,
      (bs <+: unread c → Ends env d s c (.ok ⟨(.tuple (bs.map .u8), ⟨c.input, c.offset + bs.length⟩), []⟩)) ∧
      (¬ bs <+: unread c → ∃ e, Ends env d s c (.err e))) ∧
    (∃ d, compileFormat m o (byteSeq bs) next st = .ok (d, st) ∧ ∀ env s c,
      (bs <+: unread c → Ends env d s c (.ok ⟨(.seq (.strict (bs.map .u8)), ⟨c.input, c.offset + bs.length⟩), []⟩)) ∧
      (¬ bs <+: unread c → ∃ e, Ends env d s c (.err e))) := by
  constructor
  · refine ⟨.tuple (bs.map fun b => .byte (ByteSet.fromIter [b])), ?_, fun env s c => ?_⟩
    · rw [isBytes, compileFormat, compileLits]; rfl
    · obtain ⟨h1, h2⟩ := foldLits env 0 s bs (.new ([], c))
      refine ⟨fun h => ends_of 2 nofun ?_, fun h => ?_⟩
      · exact Outcome.bind_eq_ok.2 ⟨_, h1 h, rfl⟩
      · obtain ⟨e, he⟩ := h2 h
        exact ⟨e, ends_of 2 nofun (Record.bind_eq_err.2 (.inl he))⟩
  · refine ⟨.sequence (bs.map fun b => .byte (ByteSet.fromIter [b])), ?_, fun env s c => ?_⟩
    · rw [byteSeq, compileFormat, compileLits]; rfl
    · obtain ⟨h1, h2⟩ := foldLits env 0 s bs (.new ([], c))
      refine ⟨fun h => ends_of 2 nofun ?_, fun h => ?_⟩
      · exact Outcome.bind_eq_ok.2 ⟨_, h1 h, rfl⟩
      · obtain ⟨e, he⟩ := h2 h
        exact ⟨e, ends_of 2 nofun (Record.bind_eq_err.2 (.inl he))⟩

end

example : bigEnd [0x12, 0x34] = 0x1234 ∧ littleEnd [0x12, 0x34] = 0x3412 ∧ twosComplement .b16 0xFFFE = -2 := by decide

example : [1, 2] <+: unread ⟨[9, 1, 2, 3], 1⟩ ∧ ¬ [1, 3] <+: unread ⟨[9, 1, 2, 3], 1⟩ := by decide

end Helper
end Doodle
