import Verif.Lemmas.GenScope
import Verif.Props.Parser

/-! The runtime parser simulates the read context of the interpreter. -/

namespace Doodle
namespace Gen

open Rt (Parser OpRes PErr ByteOffset Lens ViewStack bitStream bitStream_length bitStream_get bit_of_byte
  gt_bytes gt_bits_bytes gt_bits addUsize_eq_ok tryIncrement_cases)

/-! ### the states -/

/-- what never changes in a parser, and bounds its arithmetic -/
structure Base (p : Parser) : Prop where
  max : p.maxOffset = .bytes p.buffer.length
  bits : 8 * p.buffer.length < usizeCard
  bytes : p.startOffset + p.buffer.length < usizeCard

/-- reading bytes: the input of the interpreter ends at the limit -/
def SimBytes (c : ReadCtxt) (p : Parser) : Prop :=
  ∃ n m, p.offset = .bytes n ∧ p.currentLimit = .bytes m ∧ n ≤ m ∧ m ≤ p.buffer.length ∧
    c.offset = p.startOffset + n ∧ ∃ pre, pre.length = p.startOffset ∧ c.input = pre ++ p.buffer.take m

/-- reading bits: the input of the interpreter is the bits from where they were entered to the limit -/
def SimBits (c : ReadCtxt) (p : Parser) : Prop :=
  ∃ s l, p.offset = .bits s c.offset ∧ c.offset ≤ l ∧ 8 * s + l ≤ 8 * p.buffer.length ∧
    c.input = ((bitStream p.buffer).drop (8 * s)).take l ∧
    (p.currentLimit = .bits s l ∨ ∃ m, p.currentLimit = .bytes m ∧ 8 * m = 8 * s + l)

/-- the parser is where the interpreter is -/
def Sim (bits : Bool) (c : ReadCtxt) (p : Parser) : Prop :=
  Base p ∧ (bits = false → SimBytes c p) ∧ (bits = true → SimBits c p)

theorem Sim.toBytes {c : ReadCtxt} {p : Parser} (h : Sim false c p) : SimBytes c p := h.2.1 rfl
theorem Sim.toBits {c : ReadCtxt} {p : Parser} (h : Sim true c p) : SimBits c p := h.2.2 rfl
theorem SimBytes.sim {c : ReadCtxt} {p : Parser} (hb : Base p) (h : SimBytes c p) : Sim false c p :=
  ⟨hb, (fun _ => h), (fun h => nomatch h)⟩
theorem SimBits.sim {c : ReadCtxt} {p : Parser} (hb : Base p) (h : SimBits c p) : Sim true c p :=
  ⟨hb, (fun h => nomatch h), (fun _ => h)⟩

/-- what the context says about the parser -/
structure Holds (k : Ctx) (p : Parser) : Prop where
  main : k.main = true → p.startOffset = 0
  whole : k.whole = true → ViewStack.getLimit p.stack = none
  exact : k.exact = true → ∀ m, p.currentLimit = .bytes m → m = p.buffer.length

/-- both in bytes, or both in bits from the same start -/
def SameMode : ByteOffset → ByteOffset → Prop
  | .bytes _, .bytes _ => True
  | .bits s _, .bits t _ => t = s
  | _, _ => False

theorem SameMode.refl (o : ByteOffset) : SameMode o o := by cases o <;> simp [SameMode]

theorem SameMode.trans {a b c : ByteOffset} (h : SameMode a b) (h' : SameMode b c) : SameMode a c := by
  cases a <;> cases b <;> cases c <;> simp_all [SameMode]

/-- the parts that no operation changes -/
structure Keep (p p' : Parser) : Prop where
  buffer : p'.buffer = p.buffer
  start : p'.startOffset = p.startOffset
  max : p'.maxOffset = p.maxOffset

theorem Keep.refl (p : Parser) : Keep p p := ⟨rfl, rfl, rfl⟩
theorem Keep.trans {a b c : Parser} (h : Keep a b) (h' : Keep b c) : Keep a c :=
  ⟨h'.buffer.trans h.buffer, h'.start.trans h.start, h'.max.trans h.max⟩
theorem Keep.base {p p' : Parser} (h : Keep p p') (hb : Base p) : Base p' :=
  ⟨by rw [h.max, h.buffer]; exact hb.max, by rw [h.buffer]; exact hb.bits, by rw [h.buffer, h.start]; exact hb.bytes⟩

/-- contexts of alternatives that were not removed -/
def Leak (leak : ViewStack) : Prop := ∀ l ∈ leak, ∃ o, l = Lens.alts o

theorem Leak.limit : ∀ {leak : ViewStack} (_ : Leak leak) (s : ViewStack),
    ViewStack.getLimit (leak ++ s) = ViewStack.getLimit s
  | [], _, _ => rfl
  | l :: leak, h, s => by
    obtain ⟨o, rfl⟩ := h l (by simp)
    exact Leak.limit (leak := leak) (fun l hl => h l (List.mem_cons_of_mem _ hl)) s

/-- a parser after a block that succeeded -/
structure After (quiet : Bool) (p p' : Parser) : Prop where
  keep : Keep p p'
  mode : SameMode p.offset p'.offset
  stack : ∃ leak, p'.stack = leak ++ p.stack ∧ Leak leak ∧ (quiet = true → leak = [])

theorem After.refl (q : Bool) (p : Parser) : After q p p :=
  ⟨.refl p, .refl _, [], rfl, (fun _ h => by cases h), fun _ => rfl⟩

theorem After.trans {q : Bool} {a b c : Parser} (h : After q a b) (h' : After q b c) : After q a c := by
  obtain ⟨l1, h1, h2, h3⟩ := h.stack
  obtain ⟨l2, h4, h5, h6⟩ := h'.stack
  refine ⟨h.keep.trans h'.keep, h.mode.trans h'.mode, l2 ++ l1, by rw [h4, h1, List.append_assoc], ?_, ?_⟩
  · intro l hl
    rcases List.mem_append.mp hl with hl | hl
    · exact h5 l hl
    · exact h2 l hl
  · intro hq; rw [h3 hq, h6 hq]; rfl

theorem After.limit {q : Bool} {p p' : Parser} (h : After q p p') : p'.currentLimit = p.currentLimit := by
  obtain ⟨leak, h1, h2, _⟩ := h.stack
  simp only [Parser.currentLimit, h1, h2.limit, h.keep.max]

theorem After.weaken {q q' : Bool} {p p' : Parser} (hq : q' = true → q = true) (h : After q p p') : After q' p p' :=
  ⟨h.keep, h.mode, by obtain ⟨l, h1, h2, h3⟩ := h.stack; exact ⟨l, h1, h2, fun h => h3 (hq h)⟩⟩

/-- only the offset changed -/
def Moved (p p' : Parser) : Prop := ∃ o, p' = { p with offset := o } ∧ SameMode p.offset o

theorem Moved.after {q : Bool} {p p' : Parser} (h : Moved p p') : After q p p' := by
  obtain ⟨o, rfl, h2⟩ := h
  exact ⟨⟨rfl, rfl, rfl⟩, h2, [], rfl, (fun _ h => by cases h), fun _ => rfl⟩

theorem Moved.refl (p : Parser) : Moved p p := ⟨p.offset, rfl, .refl _⟩
theorem Moved.trans {a b c : Parser} (h : Moved a b) (h' : Moved b c) : Moved a c := by
  obtain ⟨o, rfl, h2⟩ := h
  obtain ⟨o', rfl, h4⟩ := h'
  exact ⟨o', rfl, h2.trans h4⟩

theorem Holds.after {k : Ctx} {q : Bool} {p p' : Parser} (h : Holds k p) (ha : After q p p') : Holds k p' := by
  refine ⟨?_, ?_, ?_⟩
  · intro hm; rw [ha.keep.start]; exact h.main hm
  · intro hw
    obtain ⟨leak, h1, h2, _⟩ := ha.stack
    rw [h1, h2.limit]; exact h.whole hw
  · intro he m hm
    rw [ha.keep.buffer]
    exact h.exact he m (by rw [← ha.limit]; exact hm)

/-- a parser after a block that failed: the contexts it opened and left behind cannot be recovered from -/
structure Junk (p p' : Parser) : Prop where
  keep : Keep p p'
  stack : ∃ j, p'.stack = j ++ p.stack ∧ ∀ l ∈ j, Lens.recover l = none

theorem Junk.refl (p : Parser) : Junk p p := ⟨.refl p, [], rfl, fun _ h => by cases h⟩

theorem Moved.junk {p p' : Parser} (h : Moved p p') : Junk p p' := by
  obtain ⟨o, rfl, _⟩ := h
  exact ⟨⟨rfl, rfl, rfl⟩, [], rfl, fun _ h => by cases h⟩

theorem Junk.after {p p' p'' : Parser} (h : After true p p') (h' : Junk p' p'') : Junk p p'' := by
  obtain ⟨l, h1, _, h3⟩ := h.stack
  obtain ⟨j, h4, h5⟩ := h'.stack
  refine ⟨h.keep.trans h'.keep, j, ?_, h5⟩
  rw [h4, h1, h3 rfl]; rfl

/-- a failed block below an open context that cannot be recovered from -/
theorem Junk.under {p p' : Parser} {l : Lens} (hl : l.recover = none) {o : ByteOffset}
    (h : Junk { p with offset := o, stack := l :: p.stack } p') : Junk p p' := by
  obtain ⟨j, h1, h2⟩ := h.stack
  refine ⟨⟨h.keep.buffer, h.keep.start, h.keep.max⟩, j ++ [l], ?_, ?_⟩
  · rw [h1, List.append_assoc]; rfl
  · intro x hx
    rcases List.mem_append.mp hx with hx | hx
    · exact h2 x hx
    · rw [List.mem_singleton.mp hx]; exact hl

/-! ### reading -/

/-- further by `d` bytes or bits -/
def shift : ByteOffset → Nat → ByteOffset
  | .bytes n, d => .bytes (n + d)
  | .bits s a, d => .bits s (a + d)

theorem same_shift (o : ByteOffset) (d : Nat) : SameMode o (shift o d) := by cases o <;> simp [SameMode, shift]

theorem input_length {b : Bool} {c : ReadCtxt} {p : Parser} (h : Sim b c p) :
    c.offset ≤ c.input.length ∧ c.input.length < usizeCard := by
  cases b with
  | false =>
    obtain ⟨n, m, _, _, h3, h4, h5, pre, h6, h7⟩ := h.toBytes
    have := h.1.bytes
    rw [h7, List.length_append, h6, List.length_take]; omega
  | true =>
    obtain ⟨s, l, h1, h2, h3, h4, h5⟩ := h.toBits
    have := h.1.bits
    rw [h4, List.length_take, List.length_drop, bitStream_length]; omega

theorem incrementBy_ok {o : ByteOffset} {d : Nat}
    (h : match o with | .bytes n => n + d < usizeCard | .bits _ a => a + d < usizeCard) :
    o.incrementBy d = .ok (shift o d) := by
  cases o with
  | bytes n => show (addUsize n d >>= fun m => Panicky.ok (ByteOffset.bytes m)) = _; unfold addUsize; rw [if_pos h]; rfl
  | bits s a =>
    show (addUsize a d >>= fun m => Panicky.ok (ByteOffset.bits s m)) = _; unfold addUsize; rw [if_pos h]; rfl

/-- the state after moving by `d` inside the input -/
theorem sim_shift {b : Bool} {c : ReadCtxt} {p : Parser} (h : Sim b c p) {d : Nat}
    (hd : c.offset + d ≤ c.input.length) :
    Sim b { c with offset := c.offset + d } { p with offset := shift p.offset d } := by
  refine ⟨⟨h.1.max, h.1.bits, h.1.bytes⟩, ?_, ?_⟩
  · rintro rfl
    obtain ⟨n, m, h1, h2, h3, h4, h5, pre, h6, h7⟩ := h.toBytes
    rw [h7, List.length_append, h6, List.length_take] at hd
    refine ⟨n + d, m, by simp only [h1, shift], h2, by omega, h4, ?_, pre, h6, h7⟩
    show c.offset + d = p.startOffset + (n + d); omega
  · rintro rfl
    obtain ⟨s, l, h1, h2, h3, h4, h5⟩ := h.toBits
    rw [h4, List.length_take, List.length_drop, bitStream_length] at hd
    refine ⟨s, l, by simp only [h1, shift], ?_, h3, h4, h5⟩
    show c.offset + d ≤ l; omega

theorem tryIncrement_ok {b : Bool} {c : ReadCtxt} {p : Parser} (h : Sim b c p) {d : Nat}
    (hd : c.offset + d ≤ c.input.length) :
    p.tryIncrement d = .ok p.offset { p with offset := shift p.offset d } := by
  have hlen := input_length h
  cases b with
  | false =>
    obtain ⟨n, m, h1, h2, h3, h4, h5, pre, h6, h7⟩ := h.toBytes
    have hinc : p.offset.incrementBy d = .ok (shift p.offset d) := incrementBy_ok (by rw [h1]; show n + d < _; omega)
    have hcmp : (shift p.offset d).gt p.currentLimit = false := by
      rw [h1, h2]
      show (ByteOffset.bytes (n + d)).gt _ = _
      rw [gt_bytes]
      rw [h7, List.length_append, h6, List.length_take] at hd
      exact decide_eq_false (by omega)
    rcases tryIncrement_cases hinc with ⟨_, h8⟩ | ⟨h8, _⟩
    · exact h8
    · rw [hcmp] at h8; cases h8
  | true =>
    obtain ⟨s, l, h1, h2, h3, h4, h5⟩ := h.toBits
    have hinc : p.offset.incrementBy d = .ok (shift p.offset d) :=
      incrementBy_ok (by rw [h1]; show c.offset + d < _; omega)
    rw [h4, List.length_take, List.length_drop, bitStream_length] at hd
    have hcmp : (shift p.offset d).gt p.currentLimit = false := by
      rw [h1]
      show (ByteOffset.bits s (c.offset + d)).gt _ = _
      rcases h5 with h5 | ⟨m, h5, h6⟩
      · rw [h5, gt_bits]; exact decide_eq_false (by omega)
      · rw [h5, gt_bits_bytes]; exact decide_eq_false (by omega)
    rcases tryIncrement_cases hinc with ⟨_, h8⟩ | ⟨h8, _⟩
    · exact h8
    · rw [hcmp] at h8; cases h8

/-- beyond the end in bytes -/
theorem tryIncrement_err {c : ReadCtxt} {p : Parser} (h : Sim false c p) {d : Nat}
    (hd : c.input.length < c.offset + d) (hover : c.offset + d < usizeCard) : ∃ e, p.tryIncrement d = .err e p := by
  obtain ⟨n, m, h1, h2, h3, h4, h5, pre, h6, h7⟩ := h.toBytes
  have hinc : p.offset.incrementBy d = .ok (shift p.offset d) := incrementBy_ok (by rw [h1]; show n + d < _; omega)
  have hcmp : (shift p.offset d).gt p.currentLimit = true := by
    rw [h1, h2]
    show (ByteOffset.bytes (n + d)).gt _ = _
    rw [gt_bytes]
    rw [h7, List.length_append, h6, List.length_take] at hd
    exact decide_eq_true (by omega)
  rcases tryIncrement_cases hinc with ⟨h8, _⟩ | ⟨_, h8⟩
  · rw [hcmp] at h8; cases h8
  · exact h8

theorem readByte_some {b : Bool} {c c' : ReadCtxt} {p : Parser} (h : Sim b c p) {x : UInt8}
    (hc : c.readByte = some (x, c')) :
    c' = { c with offset := c.offset + 1 } ∧ c.input[c.offset]? = some x ∧
      p.readByte = .ok x { p with offset := shift p.offset 1 } := by
  unfold ReadCtxt.readByte at hc
  split at hc
  · next y hy =>
    cases hc
    refine ⟨rfl, hy, ?_⟩
    have hlt : c.offset < c.input.length := (List.getElem?_eq_some_iff.mp hy).1
    unfold Parser.readByte
    rw [tryIncrement_ok h (d := 1) (by omega)]
    simp only [OpRes.bind]
    cases b with
    | false =>
      obtain ⟨n, m, h1, h2, h3, h4, h5, pre, h6, h7⟩ := h.toBytes
      have hb : p.buffer[n]? = some x := by
        have h8 : c.input[c.offset]? = (p.buffer.take m)[n]? := by
          rw [h7, List.getElem?_append_right (by omega), h6, h5]; congr 1; omega
        rw [hy, List.getElem?_take] at h8
        split at h8
        · exact h8.symm
        · cases h8
      simp only [h1, ByteOffset.asBytes, hb]
    | true =>
      obtain ⟨s, l, h1, h2, h3, h4, h5⟩ := h.toBits
      have hl : c.offset < l := by
        rw [h4, List.length_take] at hlt; omega
      have h8 : (bitStream p.buffer)[8 * s + c.offset]? = some x := by
        rw [h4, List.getElem?_take, if_pos hl, List.getElem?_drop] at hy; exact hy
      have hdiv : (8 * s + c.offset) / 8 = s + c.offset / 8 := by omega
      have hmod : (8 * s + c.offset) % 8 = c.offset % 8 := by omega
      have hin : (8 * s + c.offset) / 8 < p.buffer.length := by omega
      rw [bitStream_get p.buffer _ hin] at h8
      simp only [hdiv, hmod] at h8 hin
      simp only [h1, ByteOffset.asBytes, List.getElem?_eq_getElem hin]
      rw [bit_of_byte _ (Nat.mod_lt _ (by omega))]
      rw [Option.some.inj h8]
  · cases hc

theorem readByte_none {b : Bool} {c : ReadCtxt} {p : Parser} (h : Sim b c p) (hc : c.readByte = none)
    (hx : b = true → ∀ m, p.currentLimit = .bytes m → m = p.buffer.length) :
    ∃ e p', p.readByte = .err e p' ∧ Moved p p' := by
  have hend : c.input.length ≤ c.offset := by
    unfold ReadCtxt.readByte at hc
    split at hc
    · cases hc
    · next hn => exact List.getElem?_eq_none_iff.mp hn
  have hlen := input_length h
  unfold Parser.readByte
  cases b with
  | false =>
    obtain ⟨n, m, h1, h2, h3, h4, h5, pre, h6, h7⟩ := h.toBytes
    have hn : n + 1 < usizeCard := by
      have h8 := h.1.bits
      have h9 : 0 < usizeCard := by omega
      by_cases hz : p.buffer.length = 0
      · have : 1 < usizeCard := by unfold usizeCard; omega
        omega
      · omega
    have hinc : p.offset.incrementBy 1 = .ok (shift p.offset 1) := incrementBy_ok (by rw [h1]; exact hn)
    have hcmp : (shift p.offset 1).gt p.currentLimit = true := by
      rw [h1, h2]
      show (ByteOffset.bytes (n + 1)).gt _ = _
      rw [gt_bytes]
      rw [h7, List.length_append, h6, List.length_take] at hend
      exact decide_eq_true (by omega)
    rcases tryIncrement_cases hinc with ⟨h8, _⟩ | ⟨_, e, h8⟩
    · rw [hcmp] at h8; cases h8
    · rw [h8]; exact ⟨e, p, rfl, .refl p⟩
  | true =>
    obtain ⟨s, l, h1, h2, h3, h4, h5⟩ := h.toBits
    have hl : l ≤ c.offset := by
      rw [h4, List.length_take, List.length_drop, bitStream_length] at hend; omega
    have hn : c.offset + 1 < usizeCard := by
      have h8 := h.1.bits
      by_cases hz : p.buffer.length = 0
      · have : 1 < usizeCard := by unfold usizeCard; omega
        omega
      · have : 8 * p.buffer.length + 1 < usizeCard := by
          have : usizeCard % 8 = 0 := by unfold usizeCard; omega
          omega
        omega
    have hinc : p.offset.incrementBy 1 = .ok (shift p.offset 1) := incrementBy_ok (by rw [h1]; exact hn)
    rcases tryIncrement_cases hinc with ⟨h8, h9⟩ | ⟨_, e, h8⟩
    · rcases h5 with h5 | ⟨m, h5, h6⟩
      · rw [h1, h5] at h8
        have h8 : (ByteOffset.bits s (c.offset + 1)).gt (.bits s l) = false := h8
        rw [gt_bits] at h8
        have := of_decide_eq_false h8
        omega
      · have h7 := hx rfl m h5
        rw [h9]
        have hout : p.buffer[s + c.offset / 8]? = none := List.getElem?_eq_none_iff.mpr (by omega)
        simp only [OpRes.bind, h1, ByteOffset.asBytes, hout]
        exact ⟨_, _, rfl, .bits s (c.offset + 1), rfl, by rw [h1]; rfl⟩
    · rw [h8]; exact ⟨e, p, rfl, .refl p⟩

/-- both know how much is left -/
theorem remaining_ok {b : Bool} {c : ReadCtxt} {p : Parser} (h : Sim b c p) :
    p.remaining = .ok (c.input.length - c.offset) := by
  have hb := h.1.bits
  unfold Parser.remaining
  cases b with
  | false =>
    obtain ⟨n, m, h1, h2, h3, h4, h5, pre, h6, h7⟩ := h.toBytes
    rw [h1, h2]
    show Rt.subUsize m n = _
    unfold Rt.subUsize
    rw [if_pos h3]
    congr 1
    rw [h7, List.length_append, h6, List.length_take]; omega
  | true =>
    obtain ⟨s, l, h1, h2, h3, h4, h5⟩ := h.toBits
    have hlen : c.input.length = l := by rw [h4, List.length_take, List.length_drop, bitStream_length]; omega
    have e1 : (ByteOffset.bits s c.offset).absBitOffset = .ok (8 * s + c.offset) := by
      simp only [ByteOffset.absBitOffset, Rt.mulUsize]
      rw [if_pos (by omega)]
      show addUsize (s * 8) c.offset = _
      unfold addUsize
      rw [if_pos (by omega)]; congr 1; omega
    have e2 : p.currentLimit.absBitOffset = .ok (8 * s + l) := by
      rcases h5 with h5 | ⟨m, h5, h6⟩
      · rw [h5]
        simp only [ByteOffset.absBitOffset, Rt.mulUsize]
        rw [if_pos (by omega)]
        show addUsize (s * 8) l = _
        unfold addUsize
        rw [if_pos (by omega)]; congr 1; omega
      · rw [h5]
        simp only [ByteOffset.absBitOffset, Rt.mulUsize]
        rw [if_pos (by omega)]; congr 1; omega
    rw [h1]
    simp only [ByteOffset.delta, ByteOffset.isBitMode, if_true, e1, e2]
    show Rt.subUsize (8 * s + l) (8 * s + c.offset) = _
    unfold Rt.subUsize
    rw [if_pos (by omega), hlen]; congr 1; omega

theorem readByte_iff (c : ReadCtxt) : c.readByte = none ↔ c.input.length ≤ c.offset := by
  unfold ReadCtxt.readByte
  cases h : c.input[c.offset]? with
  | none => simpa using h
  | some b => simp only [reduceCtorEq, false_iff]; have := (List.getElem?_eq_some_iff.mp h).1; omega

theorem readByte_rest {c c' : ReadCtxt} {x : UInt8} (h : c.readByte = some (x, c')) :
    c.input.drop c.offset = x :: c'.input.drop c'.offset := by
  unfold ReadCtxt.readByte at h
  split at h
  · next y hy => 
    cases h
    obtain ⟨h1, h2⟩ := List.getElem?_eq_some_iff.mp hy
    rw [← h2]; exact List.drop_eq_getElem_cons h1
  · cases h

theorem rest_nil {c : ReadCtxt} (h : c.readByte = none) : c.input.drop c.offset = [] :=
  List.drop_eq_nil_of_le ((readByte_iff c).mp h)

/-! ### match trees -/

/-- the limit is exact where it matters -/
def Exact (b : Bool) (p : Parser) : Prop := b = true → ∀ m, p.currentLimit = .bytes m → m = p.buffer.length

theorem Exact.moved {b : Bool} {p : Parser} (h : Exact b p) (o : ByteOffset) : Exact b { p with offset := o } := h

mutual
theorem treeCode_sim (b : Bool) : ∀ (t : MatchTree) (_ : LeafTree t) {c : ReadCtxt} {p : Parser} (_ : Sim b c p),
    (∀ ix, t.matchesBytes (c.input.drop c.offset) = some ix → ∃ p', treeCode t p = .ok ix p' ∧ Moved p p') ∧
    (t.matchesBytes (c.input.drop c.offset) = none → Exact b p → ∃ e p', treeCode t p = .err e p' ∧ Moved p p')
  | .node a [], ht, c, p, hs => by
    have hm : ∀ r, (MatchTree.node a []).matchesBytes r = a := by
      intro r; cases r <;> simp only [MatchTree.matchesBytes, MatchTree.matchesBranches]
    rw [hm]
    cases a with
    | none => exact ⟨(fun _ h => nomatch h), fun _ _ => ⟨_, _, by rw [treeCode], .refl p⟩⟩
    | some i => exact ⟨(fun _ h => by cases h; exact ⟨_, by rw [treeCode], .refl p⟩), fun h => nomatch h⟩
  | .node a [(bs, t)], ht, c, p, hs => by
    obtain ⟨h1, h2, h3, _⟩ := ht
    have ha : a = none := h1 (by simp)
    subst ha
    rw [treeCode]
    cases hr : c.readByte with
    | none =>
      rw [rest_nil hr]
      simp only [MatchTree.matchesBytes]
      refine ⟨(fun _ h => nomatch h), fun _ hx => ?_⟩
      obtain ⟨e, p', h4, h5⟩ := readByte_none hs hr hx
      rw [h4]; exact ⟨e, p', rfl, h5⟩
    | some xc =>
      obtain ⟨x, c'⟩ := xc
      obtain ⟨h4, h5, h6⟩ := readByte_some hs hr
      rw [readByte_rest hr, h6]
      simp only [MatchTree.matchesBytes, MatchTree.matchesBranches, Res.op, Res.bind]
      have hmv : Moved p { p with offset := shift p.offset 1 } := ⟨_, rfl, same_shift _ _⟩
      split
      · next hc =>
        have hlt : c.offset < c.input.length := (List.getElem?_eq_some_iff.mp h5).1
        have hs' := sim_shift hs (d := 1) (by omega)
        rw [← h4] at hs'
        obtain ⟨g1, g2⟩ := treeCode_sim b t h3 hs'
        refine ⟨fun ix hix => ?_, fun hn hx => ?_⟩
        · obtain ⟨p', h7, h8⟩ := g1 ix hix; exact ⟨p', h7, hmv.trans h8⟩
        · obtain ⟨e, p', h7, h8⟩ := g2 hn hx; exact ⟨e, p', h7, hmv.trans h8⟩
      · exact ⟨(fun _ h => nomatch h), fun _ _ => ⟨_, _, rfl, hmv⟩⟩
  | .node a (b1 :: b2 :: bs), ht, c, p, hs => by
    obtain ⟨h1, h2, h3⟩ := ht
    have ha : a = none := h1 (by simp)
    subst ha
    have hfull : ((b1 :: b2 :: bs).any fun x => x.1.isFull) = false := by
      rw [List.any_eq_false]; intro x hx; rw [h2 (by simp) x hx]; simp
    rw [treeCode, hfull]
    simp only [Bool.false_eq_true, if_false]
    cases hr : c.readByte with
    | none =>
      rw [rest_nil hr]
      simp only [MatchTree.matchesBytes]
      refine ⟨(fun _ h => nomatch h), fun _ hx => ?_⟩
      obtain ⟨e, p', h4, h5⟩ := readByte_none hs hr hx
      rw [h4]; exact ⟨e, p', rfl, h5⟩
    | some xc =>
      obtain ⟨x, c'⟩ := xc
      obtain ⟨h4, h5, h6⟩ := readByte_some hs hr
      rw [readByte_rest hr, h6]
      simp only [MatchTree.matchesBytes, Res.op, Res.bind]
      have hmv : Moved p { p with offset := shift p.offset 1 } := ⟨_, rfl, same_shift _ _⟩
      have hlt : c.offset < c.input.length := (List.getElem?_eq_some_iff.mp h5).1
      have hs' := sim_shift hs (d := 1) (by omega)
      rw [← h4] at hs'
      obtain ⟨g1, g2⟩ := treeCases_sim b (b1 :: b2 :: bs) h3 (a := none) x hs'
      refine ⟨fun ix hix => ?_, fun hn hx => ?_⟩
      · obtain ⟨p', h7, h8⟩ := g1 (.inl rfl) ix hix; exact ⟨p', h7, hmv.trans h8⟩
      · obtain ⟨e, p', h7, h8⟩ := g2 hn hx; exact ⟨e, p', h7, hmv.trans h8⟩

theorem treeCases_sim (b : Bool) : ∀ (bs : List (ByteSet × MatchTree)) (_ : LeafBranches bs) {a : Option Nat} (x : UInt8)
    {c : ReadCtxt} {p : Parser} (_ : Sim b c p),
    ((a = none ∨ ∃ y ∈ bs, y.1.contains x = true) →
      ∀ ix, MatchTree.matchesBranches bs x (c.input.drop c.offset) a = some ix →
      ∃ p', treeCases bs x p = .ok ix p' ∧ Moved p p') ∧
    (MatchTree.matchesBranches bs x (c.input.drop c.offset) a = none → Exact b p →
      ∃ e p', treeCases bs x p = .err e p' ∧ Moved p p')
  | [], _, a, x, c, p, hs => by
    rw [treeCases]
    simp only [MatchTree.matchesBranches]
    refine ⟨fun h ix hix => ?_, fun _ _ => ⟨_, _, rfl, .refl p⟩⟩
    rcases h with h | ⟨y, hy, _⟩
    · rw [h] at hix; cases hix
    · cases hy
  | (s, t) :: bs, ⟨h1, h2⟩, a, x, c, p, hs => by
    rw [treeCases]
    simp only [MatchTree.matchesBranches]
    split
    · next hc =>
      obtain ⟨g1, g2⟩ := treeCode_sim b t h1 hs
      exact ⟨fun _ => g1, g2⟩
    · next hc =>
      obtain ⟨g1, g2⟩ := treeCases_sim b bs h2 (a := a) x hs
      refine ⟨fun h => g1 ?_, g2⟩
      rcases h with h | ⟨y, hy, hyc⟩
      · exact .inl h
      · cases hy with
        | head => exact absurd hyc hc
        | tail _ hy => exact .inr ⟨y, hy, hyc⟩
end

/-- the root of a tree asked while there is input -/
theorem rootCode_sim (b : Bool) (t : MatchTree) (ht : RootTree t) {c : ReadCtxt} {p : Parser} (hs : Sim b c p)
    (hlt : c.offset < c.input.length) :
    (∀ ix, t.matchesBytes (c.input.drop c.offset) = some ix → ∃ p', treeCode t p = .ok ix p' ∧ Moved p p') ∧
    (t.matchesBytes (c.input.drop c.offset) = none → Exact b p → ∃ e p', treeCode t p = .err e p' ∧ Moved p p') := by
  obtain ⟨xc, hr⟩ : ∃ xc, c.readByte = some xc := by
    cases h : c.readByte with
    | none => have := (readByte_iff c).mp h; omega
    | some xc => exact ⟨xc, rfl⟩
  obtain ⟨x, c'⟩ := xc
  obtain ⟨h4, h5, h6⟩ := readByte_some hs hr
  have hmv : Moved p { p with offset := shift p.offset 1 } := ⟨_, rfl, same_shift _ _⟩
  have hs' := sim_shift hs (d := 1) (by omega)
  rw [← h4] at hs'
  match t, ht with
  | .node a [], _ =>
    have hm : ∀ r, (MatchTree.node a []).matchesBytes r = a := by
      intro r; cases r <;> simp only [MatchTree.matchesBytes, MatchTree.matchesBranches]
    rw [hm]
    cases a with
    | none => exact ⟨(fun _ h => nomatch h), fun _ _ => ⟨_, _, by rw [treeCode], .refl p⟩⟩
    | some i => exact ⟨(fun _ h => by cases h; exact ⟨_, by rw [treeCode], .refl p⟩), fun h => nomatch h⟩
  | .node a [(bs, t)], ht =>
    obtain ⟨⟨h3, _⟩, _⟩ := ht
    rw [treeCode, readByte_rest hr, h6]
    simp only [MatchTree.matchesBytes, MatchTree.matchesBranches, Res.op, Res.bind]
    split
    · next hc =>
      obtain ⟨g1, g2⟩ := treeCode_sim b t h3 hs'
      refine ⟨fun ix hix => ?_, fun hn hx => ?_⟩
      · obtain ⟨p', h7, h8⟩ := g1 ix hix; exact ⟨p', h7, hmv.trans h8⟩
      · obtain ⟨e, p', h7, h8⟩ := g2 hn hx; exact ⟨e, p', h7, hmv.trans h8⟩
    · cases a with
      | none => exact ⟨(fun _ h => nomatch h), fun _ _ => ⟨_, _, rfl, hmv⟩⟩
      | some i => exact ⟨(fun _ h => by cases h; exact ⟨_, rfl, hmv⟩), fun h => nomatch h⟩
  | .node a (b1 :: b2 :: bs), ht =>
    obtain ⟨h3, h2⟩ := ht
    obtain ⟨h2, hcov⟩ := h2 (by simp)
    have hfull : ((b1 :: b2 :: bs).any fun x => x.1.isFull) = false := by
      rw [List.any_eq_false]; intro x hx; rw [h2 x hx]; simp
    rw [treeCode, hfull, readByte_rest hr, h6]
    simp only [Bool.false_eq_true, if_false, MatchTree.matchesBytes, Res.op, Res.bind]
    obtain ⟨g1, g2⟩ := treeCases_sim b (b1 :: b2 :: bs) h3 (a := a) x hs'
    refine ⟨fun ix hix => ?_, fun hn hx => ?_⟩
    · obtain ⟨p', h7, h8⟩ := g1 (hcov.imp id (fun h => h x)) ix hix; exact ⟨p', h7, hmv.trans h8⟩
    · obtain ⟨e, p', h7, h8⟩ := g2 hn hx; exact ⟨e, p', h7, hmv.trans h8⟩

theorem sim_openPeek {b : Bool} {c : ReadCtxt} {p : Parser} (h : Sim b c p) : Sim b c p.openPeek :=
  ⟨⟨h.1.max, h.1.bits, h.1.bytes⟩, h.2.1, h.2.2⟩

/-- what the tree decides, in a peek context -/
theorem matchTree_of {p : Parser} {t : MatchTree} {r : Option Nat}
    (h : (∀ ix, r = some ix → ∃ p', treeCode t p.openPeek = .ok ix p' ∧ Moved p.openPeek p')) :
    ∀ ix, r = some ix → matchTree t p = .ok ix p := by
  intro ix hix
  obtain ⟨p', h1, o, rfl, _⟩ := h ix hix
  unfold matchTree
  rw [h1]
  rfl

theorem matchTree_err_of {p : Parser} {t : MatchTree}
    (h : ∃ e p', treeCode t p.openPeek = .err e p' ∧ Moved p.openPeek p') :
    ∃ e p', matchTree t p = .err e p' ∧ Junk p p' := by
  obtain ⟨e, p', h1, h2⟩ := h
  refine ⟨e, p', by unfold matchTree; rw [h1]; rfl, ?_⟩
  exact Junk.under (l := .peek p.offset) rfl (o := p.offset) h2.junk

theorem matchTree_sim {b : Bool} {t : MatchTree} (ht : LeafTree t) {c : ReadCtxt} {p : Parser} (hs : Sim b c p) :
    (∀ ix, t.matches c = some ix → matchTree t p = .ok ix p) ∧
    (t.matches c = none → Exact b p → ∃ e p', matchTree t p = .err e p' ∧ Junk p p') := by
  obtain ⟨g1, g2⟩ := treeCode_sim b t ht (sim_openPeek hs)
  exact ⟨matchTree_of g1, fun hn hx => matchTree_err_of (g2 hn hx)⟩

theorem matchRoot_sim {b : Bool} {t : MatchTree} (ht : RootTree t) {c : ReadCtxt} {p : Parser} (hs : Sim b c p)
    (hlt : c.offset < c.input.length) :
    (∀ ix, t.matches c = some ix → matchTree t p = .ok ix p) ∧
    (t.matches c = none → Exact b p → ∃ e p', matchTree t p = .err e p' ∧ Junk p p') := by
  obtain ⟨g1, g2⟩ := rootCode_sim b t ht (sim_openPeek hs) hlt
  exact ⟨matchTree_of g1, fun hn hx => matchTree_err_of (g2 hn hx)⟩

end Gen
end Doodle
