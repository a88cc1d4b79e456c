import Verif.Lemmas.GenSim

/-! Generated decoders simulate the interpreter: slices, bits, offsets, views, and the main induction. -/

namespace Doodle
namespace Gen

open Rt (Parser OpRes PErr ByteOffset Lens ViewStack bitStream bitStream_length bitStream_get
  gt_bytes gt_bits_bytes gt_bits addUsize_eq_ok tryIncrement_cases)

/-! ### slices -/

theorem startSlice_ok {b : Bool} {c : ReadCtxt} {p : Parser} (h : Sim b c p) {size : Nat}
    (hle : c.offset + size ≤ c.input.length) :
    p.startSlice size = .ok () { p with stack := .slice (shift p.offset size) :: p.stack } ∧
    Sim b { c with input := c.input.take (c.offset + size) }
      { p with stack := .slice (shift p.offset size) :: p.stack } := by
  have hlen := input_length h
  have hb := h.1
  have hlim : ({ p with stack := .slice (shift p.offset size) :: p.stack } : Parser).currentLimit =
    shift p.offset size := rfl
  unfold Parser.startSlice
  cases b with
  | false =>
    obtain ⟨n, m, h1, h2, h3, h4, h5, pre, h6, h7⟩ := h.toBytes
    have hL : c.input.length = p.startOffset + m := by rw [h7, List.length_append, h6, List.length_take]; omega
    rw [incrementBy_ok (by rw [h1]; show n + size < _; omega)]
    have hgt : (shift p.offset size).gt p.currentLimit = false := by
      rw [h1, h2]; simp only [shift, gt_bytes]; exact decide_eq_false (by omega)
    simp only [hgt]
    refine ⟨rfl, ⟨hb.max, hb.bits, hb.bytes⟩, fun _ => ?_, fun h => nomatch h⟩
    refine ⟨n, n + size, h1, by rw [hlim, h1]; rfl, by omega, by show n + size ≤ p.buffer.length; omega, h5, pre, h6, ?_⟩
    show c.input.take (c.offset + size) = pre ++ p.buffer.take (n + size)
    rw [h7, List.take_append, h6, List.take_of_length_le (by omega), List.take_take]
    congr 2; omega
  | true =>
    obtain ⟨s, l, h1, h2, h3, h4, h5⟩ := h.toBits
    have hL : c.input.length = l := by rw [h4, List.length_take, List.length_drop, bitStream_length]; omega
    rw [incrementBy_ok (by rw [h1]; show c.offset + size < _; omega)]
    have hgt : (shift p.offset size).gt p.currentLimit = false := by
      rw [h1]
      rcases h5 with h5 | ⟨m, h5, h6⟩
      · rw [h5]; simp only [shift, gt_bits]; exact decide_eq_false (by omega)
      · rw [h5]; simp only [shift, gt_bits_bytes]; exact decide_eq_false (by omega)
    simp only [hgt]
    refine ⟨rfl, ⟨hb.max, hb.bits, hb.bytes⟩, fun h => (nomatch h), fun _ => ?_⟩
    refine ⟨s, c.offset + size, h1, by simp, by show 8 * s + (c.offset + size) ≤ 8 * p.buffer.length; omega, ?_, ?_⟩
    · show c.input.take (c.offset + size) = _
      rw [h4, List.take_take]; congr 1; omega
    · left; rw [hlim, h1]; rfl

theorem startSlice_err {c : ReadCtxt} {p : Parser} (h : Sim false c p) {size : Nat}
    (hgt : c.input.length < c.offset + size) (hover : c.offset + size < usizeCard) :
    ∃ e, p.startSlice size = .err e p := by
  obtain ⟨n, m, h1, h2, h3, h4, h5, pre, h6, h7⟩ := h.toBytes
  have hL : c.input.length = p.startOffset + m := by rw [h7, List.length_append, h6, List.length_take]; omega
  unfold Parser.startSlice
  rw [incrementBy_ok (by rw [h1]; show n + size < _; omega)]
  simp only [h1, h2, shift, gt_bytes]
  rw [decide_eq_true (by omega)]
  exact ⟨_, rfl⟩

theorem closeSlice_leak {p : Parser} : ∀ {leak : ViewStack} (_ : Leak leak) (s : ViewStack),
    p.closeSliceFrom (leak ++ s) = p.closeSliceFrom s
  | [], _, _ => rfl
  | l :: leak, h, s => by
    obtain ⟨o, rfl⟩ := h l (by simp)
    exact closeSlice_leak (leak := leak) (fun l hl => h l (List.mem_cons_of_mem _ hl)) s

/-- the end of a slice: the parser goes on behind it -/
theorem endSlice_ok {b q : Bool} {c' : ReadCtxt} {p p2 : Parser} {e : ByteOffset}
    (ha : After q { p with stack := .slice e :: p.stack } p2) (h2 : Sim b c' p2)
    (he : SameMode p.offset e) : p2.endSlice = .ok () { p with offset := e } := by
  obtain ⟨leak, h3, h4, _⟩ := ha.stack
  have hlim : p2.currentLimit = e := ha.limit
  have hmode : SameMode p.offset p2.offset := ha.mode
  have hgt : p2.offset.gt e = false := by
    cases b with
    | false =>
      obtain ⟨n, m, g1, g2, g3, _⟩ := h2.toBytes
      rw [hlim] at g2
      rw [g1, g2, gt_bytes]; exact decide_eq_false (by omega)
    | true =>
      obtain ⟨s, l, g1, g2, g3, g4, g5⟩ := h2.toBits
      rw [hlim] at g5
      rw [g1]
      rcases g5 with g5 | ⟨m, g5, g6⟩
      · rw [g5, gt_bits]; exact decide_eq_false (by omega)
      · rw [g5, gt_bits_bytes]; exact decide_eq_false (by omega)
  unfold Parser.endSlice
  rw [h3, closeSlice_leak h4]
  simp only [Parser.closeSliceFrom, hgt]
  have hk := ha.keep
  cases p; cases p2
  obtain ⟨k1, k2, k3⟩ := hk
  simp only at k1 k2 k3
  subst k1 k2 k3
  rfl

/-! ### bits -/

theorem bitStream_append (a b : List UInt8) : bitStream (a ++ b) = bitStream a ++ bitStream b := by
  unfold bitStream; rw [List.flatMap_append]

theorem bitStream_drop (l : List UInt8) (n : Nat) (h : n ≤ l.length) :
    bitStream (l.drop n) = (bitStream l).drop (8 * n) := by
  have h1 : bitStream l = bitStream (l.take n) ++ bitStream (l.drop n) := by
    rw [← bitStream_append, List.take_append_drop]
  have hlen : (bitStream (l.take n)).length = 8 * n := by rw [bitStream_length, List.length_take]; omega
  rw [h1, List.drop_left' hlen]

theorem bitStream_take (l : List UInt8) (n : Nat) (h : n ≤ l.length) :
    bitStream (l.take n) = (bitStream l).take (8 * n) := by
  have h1 : bitStream l = bitStream (l.take n) ++ bitStream (l.drop n) := by
    rw [← bitStream_append, List.take_append_drop]
  have hlen : (bitStream (l.take n)).length = 8 * n := by rw [bitStream_length, List.length_take]; omega
  rw [h1, List.take_left' hlen]

theorem bits_input {buf : List UInt8} {n m : Nat} (h1 : n ≤ m) (h2 : m ≤ buf.length) :
    bitStream ((buf.take m).drop n) = ((bitStream buf).drop (8 * n)).take (8 * (m - n)) := by
  rw [bitStream_drop _ _ (by rw [List.length_take]; omega), bitStream_take _ _ h2, List.drop_take]
  congr 1; omega

/-- what is left of the input in bytes -/
theorem rest_bytes {c : ReadCtxt} {p : Parser} {n m : Nat} (h5 : c.offset = p.startOffset + n) {pre : List UInt8}
    (h6 : pre.length = p.startOffset) (h7 : c.input = pre ++ p.buffer.take m) :
    c.input.drop c.offset = (p.buffer.take m).drop n := by
  rw [h7, List.drop_append, List.drop_eq_nil_of_le (by omega), h6, h5]
  simp

theorem bits_sim {k : Ctx} {env : Doodle.Env} {q : Nat → Ctx} {n : Nat} (ih : SimAt env q n) {d : Decoder}
    {s : Scope Decoder} {g : Env} {c : ReadCtxt} {p : Parser} (hkb : k.bits = false)
    (hk : ({ k with bits := true } : Ctx).Sound) (hf : Fragment q { k with bits := true } d) (hg : SRel s g)
    (hs : Sim k.bits c p) (hp : Holds k p) :
    Agree k p (QV k.bits) (Decoder.parse env (n + 1) (.bits d) s c) (exec env.program (n + 1) (.bits d) g p) := by
  rw [hkb] at hs
  have hlen := input_length hs
  have hb := hs.1
  obtain ⟨o, m, h1, h2, h3, h4, h5, pre, h6, h7⟩ := hs.toBytes
  have hL : c.input.length = p.startOffset + m := by rw [h7, List.length_append, h6, List.length_take]; omega
  have hrest := rest_bytes h5 h6 h7
  simp only [Decoder.parse, exec, ReadCtxt.remaining, if_pos hlen.1, Outcome.ofPanicky, Outcome.bind_ok, Rt.C35_interpreter,
    Parser.enterBitsMode, h1, Res.op, Res.bind, hrest]
  have hs1 : Sim true (ReadCtxt.new (bitStream ((p.buffer.take m).drop o))) { p with offset := .bits o 0 } := by
    refine SimBits.sim ⟨hb.max, hb.bits, hb.bytes⟩ ⟨o, 8 * (m - o), rfl, Nat.zero_le _, ?_, ?_, .inr ⟨m, h2, by omega⟩⟩
    · show 8 * o + 8 * (m - o) ≤ 8 * p.buffer.length; omega
    · exact bits_input h3 h4
  have hih := ih { k with bits := true } d s g _ { p with offset := .bits o 0 } hk hf hg hs1
    ⟨hp.main, hp.whole, hp.exact⟩
  cases hr : Decoder.parse env n d s (ReadCtxt.new (bitStream ((p.buffer.take m).drop o))) with
  | panic => exact .panic
  | fuel => exact .fuel
  | err e =>
    refine .err fun hst => ?_
    obtain ⟨e', p', g1, g2⟩ := hih.2 e hr hst
    rw [g1]
    refine ⟨e', p', rfl, fun hq => ?_⟩
    obtain ⟨⟨k1, k2, k3⟩, j, g3, g4⟩ := g2 hq
    exact ⟨⟨k1, k2, k3⟩, j, g3, g4⟩
  | ok w =>
    obtain ⟨v, p2, g1, ⟨g2, g3⟩, g4⟩ := hih.1 w hr
    rw [g1]
    simp only [Outcome.bind_ok]
    obtain ⟨s2, l, e1, e2, e3, e4, e5⟩ := g3.toBits
    have hmode : SameMode (.bits o 0) p2.offset := g4.mode
    rw [e1] at hmode
    have hso : s2 = o := hmode
    subst hso
    have hlim : p2.currentLimit = .bytes m := by rw [g4.limit]; exact h2
    have hl : l = 8 * (m - s2) := by
      rcases e5 with e5 | ⟨m', e5, e6⟩
      · rw [hlim] at e5; cases e5
      · rw [hlim] at e5; cases e5; omega
    have hbuf : p2.buffer = p.buffer := g4.keep.buffer
    have hw2 : w.value = (w.value.1, ⟨bitStream (c.input.drop c.offset), w.value.2.offset⟩) := by
      have : w.value.2.input = bitStream (c.input.drop c.offset) := by
        rw [hrest, bits_input h3 h4, e4, hbuf, hl]
      rw [← this]
    have hfin := Rt.C35_interpreter_escape c w.value.1 w.value.2.offset hlen.1 hlen.2 (by omega)
    rw [← hw2] at hfin
    refine Agree.joinO ?_
    rw [hfin]
    simp only [Parser.escapeBitsMode, e1]
    obtain ⟨leak, f1, f2, f3⟩ := g4.stack
    have hceil : (if w.value.2.offset % 8 ≠ 0 then s2 + w.value.2.offset / 8 + 1 else s2 + w.value.2.offset / 8) =
        s2 + (w.value.2.offset + 7) / 8 := by split <;> omega
    rw [hceil]
    refine .ok ⟨g2, ?_⟩ ?_
    · rw [hkb]
      refine SimBytes.sim (Keep.base (p := p) ⟨hbuf, g4.keep.start, g4.keep.max⟩ hb) ?_
      refine ⟨s2 + (w.value.2.offset + 7) / 8, m, rfl, ?_, by omega, ?_, ?_, pre, ?_, ?_⟩
      · exact hlim
      · show m ≤ p2.buffer.length; rw [hbuf]; exact h4
      · show c.offset + _ = p2.startOffset + _
        rw [g4.keep.start]
        show c.offset + _ = p.startOffset + _
        omega
      · show _ = p2.startOffset; rw [g4.keep.start]; exact h6
      · show c.input = pre ++ p2.buffer.take m; rw [hbuf]; exact h7
    · exact ⟨⟨hbuf, g4.keep.start, g4.keep.max⟩, by rw [h1]; trivial, leak, f1, f2, f3⟩

/-! ### offsets -/

theorem wide_val {δ : Type} {e : Expr} (hw : Wide e) {s : Scope δ} {v : Value} (h : e.evalValue s = .ok v) :
    ∃ x, v = .num (.fixed .b64) x := by
  obtain ⟨u, h1, h2⟩ := Panicky.bind_eq_ok.mp h
  cases h2
  match e, hw with
  | .lit .b64 x, _ => rw [Expr.eval] at h1; cases h1; exact ⟨x, rfl⟩
  | .asNum .b64 a, _ =>
    rw [Expr.eval] at h1
    obtain ⟨y, h3, h4⟩ := Panicky.bind_eq_ok.mp h1
    have : ∃ x, u = .num (.fixed .b64) x := by
      cases hy : y.coerceMapped with
      | num k' z =>
        rw [hy] at h4
        simp only [Expr.castTo, Value.mkNum] at h4
        split at h4
        · cases h4; exact ⟨_, rfl⟩
        · cases h4
      | _ => rw [hy] at h4; cases h4
    obtain ⟨x, rfl⟩ := this
    exact ⟨x, rfl⟩

theorem advance_sim {c : ReadCtxt} {p : Parser} (hs : Sim false c p) (h0 : p.startOffset = 0)
    (hw : ViewStack.getLimit p.stack = none) (dest : Nat) (hd : dest < usizeCard) :
    (dest ≤ c.input.length → ∃ adv l p1, p.advanceOrSeek dest = .ok adv p1 ∧ Sim false { c with offset := dest } p1 ∧
      p1 = { p with offset := .bytes dest, stack := l :: p.stack } ∧ Lens.restore l = some p.offset ∧
      Lens.recover l = none ∧ ViewStack.getLimit (l :: p.stack) = none) ∧
    (c.input.length < dest → ∃ e, p.advanceOrSeek dest = .err e p.openPeek) := by
  have hb := hs.1
  obtain ⟨n, m, h1, h2, h3, h4, h5, pre, h6, h7⟩ := hs.toBytes
  have hL : c.input.length = m := by rw [h7, List.length_append, h6, List.length_take, h0]; omega
  have hpre : pre = [] := List.eq_nil_of_length_eq_zero (by omega)
  have hm : m = p.buffer.length := by
    simp only [Parser.currentLimit, hw, Option.getD_none, hb.max] at h2; cases h2; rfl
  have hsim : ∀ l : Lens, ViewStack.getLimit (l :: p.stack) = none → dest ≤ m →
      Sim false { c with offset := dest } { p with offset := .bytes dest, stack := l :: p.stack } := by
    intro l hl hle
    refine SimBytes.sim ⟨hb.max, hb.bits, hb.bytes⟩ ⟨dest, m, rfl, ?_, hle, h4, ?_, pre, h6, h7⟩
    · simp only [Parser.currentLimit, hl, Option.getD_none, hb.max, hm]
    · show dest = p.startOffset + dest; omega
  have hck : p.offset.checkedDelta (.bytes (dest - p.startOffset)) = .ok (if n ≤ dest then some (dest - n) else none) := by
    rw [h1, h0]; rfl
  unfold Parser.advanceOrSeek
  rw [if_neg (by omega), hck]
  by_cases hn : n ≤ dest
  · rw [if_pos hn]
    have hlp : ViewStack.getLimit (Lens.peek p.offset :: p.stack) = none := hw
    constructor
    · intro hle
      refine ⟨true, .peek p.offset, _, ?_, hsim _ hlp (by omega), rfl, rfl, rfl, hlp⟩
      simp only
      rw [tryIncrement_ok (sim_openPeek hs) (d := dest - n) (by show c.offset + _ ≤ c.input.length; omega)]
      simp only [OpRes.bind, Parser.openPeek, h1, shift]
      congr 3; omega
    · intro hgt
      obtain ⟨e, he⟩ := tryIncrement_err (sim_openPeek hs) (d := dest - n)
        (by show c.input.length < c.offset + _; omega) (by show c.offset + _ < _; omega)
      exact ⟨e, by simp only [he, OpRes.bind]⟩
  · rw [if_neg hn]
    constructor
    · intro hle
      refine ⟨false, .seek false p.offset, _, ?_, hsim _ rfl (by omega), rfl, rfl, rfl, rfl⟩
      simp only [Parser.seekToOffset, hb.max, gt_bytes, h1, ByteOffset.isBitMode, hw, h0, Nat.sub_zero]
      rw [decide_eq_false (by omega)]
      rfl
    · intro hgt; omega

theorem align_arith {n k : Nat} (hk : 0 < k) :
    (n % k = 0 → (k - n % k) % k = 0) ∧ (n % k ≠ 0 → (n / k + 1) * k = n + (k - n % k) % k) := by
  constructor
  · intro h; rw [h, Nat.sub_zero, Nat.mod_self]
  · intro h
    have h1 := Nat.div_add_mod n k
    have h2 := Nat.mod_lt n hk
    rw [Nat.mod_eq_of_lt (by omega : k - n % k < k), Nat.add_mul, Nat.one_mul, Nat.mul_comm (n / k) k]
    omega

theorem delta_bytes (a d : Nat) : (ByteOffset.bytes a).delta (.bytes (a + d)) = .ok d := by
  show Rt.subUsize (a + d) a = _
  unfold Rt.subUsize; rw [if_pos (by omega)]; congr 1; omega

theorem panicky_ok {α β : Type} (a : α) (f : α → Panicky β) : (Panicky.ok a >>= f) = f a := rfl

/-- the skip of `Align`, in bytes from the start of the input, or in bits -/
theorem skipAlign_eq {b : Bool} {c : ReadCtxt} {p : Parser} (hs : Sim b c p) (h0 : b = false → p.startOffset = 0) {k : Nat}
    (hk : k ≠ 0) (hover : c.offset + (k - c.offset % k) % k < usizeCard)
    (hin : b = true → c.offset + (k - c.offset % k) % k ≤ c.input.length) :
    p.skipAlign k = p.advanceBy ((k - c.offset % k) % k) := by
  have hb := hs.1
  obtain ⟨a1, a2⟩ := align_arith (n := c.offset) (k := k) (by omega)
  unfold Parser.skipAlign
  rw [if_neg hk]
  cases b with
  | false =>
    obtain ⟨n, m, h1, h2, h3, h4, h5, pre, h6, h7⟩ := hs.toBytes
    have hn : n = c.offset := by rw [h5, h0 rfl]; omega
    subst hn
    simp only [h1]
    by_cases hz : c.offset % k = 0
    · rw [if_pos hz, a1 hz]
      have := delta_bytes c.offset 0
      rw [Nat.add_zero] at this
      simp only [OpRes.lift, OpRes.bind, h1, this]
    · rw [if_neg hz]
      have hm : Rt.mulUsize (c.offset / k + 1) k = .ok (c.offset + (k - c.offset % k) % k) := by
        unfold Rt.mulUsize; rw [a2 hz, if_pos hover]
      rw [hm]
      simp only [panicky_ok, OpRes.lift, OpRes.bind, h1, delta_bytes]
  | true =>
    obtain ⟨s, l, h1, h2, h3, h4, h5⟩ := hs.toBits
    have hL : c.input.length = l := by rw [h4, List.length_take, List.length_drop, bitStream_length]; omega
    have hin := hin rfl
    have hbits := hb.bits
    have e1 : ∀ a, 8 * s + a < usizeCard → (ByteOffset.bits s a).absBitOffset = .ok (8 * s + a) := by
      intro a ha
      simp only [ByteOffset.absBitOffset, Rt.mulUsize]
      rw [if_pos (by omega)]
      show addUsize (s * 8) a = _
      unfold addUsize
      rw [if_pos (by omega)]; congr 1; omega
    have hdel : ∀ d, c.offset + d ≤ l → (ByteOffset.bits s c.offset).delta (.bits s (c.offset + d)) = .ok d := by
      intro d hd
      simp only [ByteOffset.delta, ByteOffset.isBitMode, if_true, e1 _ (by omega : 8 * s + c.offset < usizeCard),
        e1 _ (by omega : 8 * s + (c.offset + d) < usizeCard)]
      show Rt.subUsize (8 * s + (c.offset + d)) (8 * s + c.offset) = _
      unfold Rt.subUsize; rw [if_pos (by omega)]; congr 1; omega
    simp only [h1]
    by_cases hz : c.offset % k = 0
    · rw [if_pos hz, a1 hz]
      have := hdel 0 (by omega)
      rw [Nat.add_zero] at this
      simp only [OpRes.lift, OpRes.bind, h1, this]
    · rw [if_neg hz]
      have hm : Rt.mulUsize (c.offset / k + 1) k = .ok (c.offset + (k - c.offset % k) % k) := by
        unfold Rt.mulUsize; rw [a2 hz, if_pos hover]
      rw [hm]
      have := hdel ((k - c.offset % k) % k) (by omega)
      simp only [panicky_ok, OpRes.lift, OpRes.bind, h1, this]

/-! ### views -/

theorem ViewSim.rest {c w : ReadCtxt} (h : ViewSim c w) : c.input.drop c.offset = w.input := by
  obtain ⟨h1, ⟨pre, h2, h3⟩, _⟩ := h
  rw [h3, h1, List.drop_left' h2]

theorem capture_ok : ∀ (k : Nat) (c : ReadCtxt) (acc vs : List Value), Decoder.captureLoop k c acc = .ok vs →
    k ≤ (c.input.drop c.offset).length ∧ vs = acc ++ ((c.input.drop c.offset).take k).map Value.u8
  | 0, c, acc, vs, h => by cases h; simp
  | k + 1, c, acc, vs, h => by
    simp only [Decoder.captureLoop] at h
    cases hr : c.readByte with
    | none => rw [hr] at h; cases h
    | some xc =>
      rw [hr] at h
      obtain ⟨h1, h2⟩ := capture_ok k xc.2 _ vs h
      rw [readByte_rest (x := xc.1) (c' := xc.2) hr]
      refine ⟨by rw [List.length_cons]; omega, ?_⟩
      rw [h2, List.take_succ_cons, List.map_cons, List.append_assoc]; rfl

theorem arrayElem_succ (w : Num.BitWidth) (r : List UInt8) (i : Nat) :
    arrayElem w r (i + 1) = arrayElem w (r.drop (w.bits / 8)) i := by
  unfold arrayElem
  rw [List.drop_drop, Nat.add_mul, Nat.one_mul, Nat.add_comm]

theorem readBase_sim {kind : BaseKind} (hk : kind.be = true ∨ kind.width = .b8) (c : ReadCtxt) :
    (∀ v c', Decoder.readBase c kind = .ok (v, c') →
      kind.width.bits / 8 ≤ (c.input.drop c.offset).length ∧ v = arrayElem kind.width (c.input.drop c.offset) 0 ∧
      c'.input.drop c'.offset = (c.input.drop c.offset).drop (kind.width.bits / 8)) ∧
    (∀ e, Decoder.readBase c kind = .err e → (c.input.drop c.offset).length < kind.width.bits / 8) := by
  have hbe : ∀ w : Num.BitWidth, 0 < w.bits / 8 → (∀ v c', (match c.readBe (w.bits / 8) with
      | none => (.err (.overrun (w.bits / 8) c.offset) : Outcome DecodeErr (Value × ReadCtxt))
      | some (n, buf') => do
        let v ← Outcome.ofPanicky (Value.mkNum (.fixed w) n)
        .ok (v, buf')) = .ok (v, c') →
      w.bits / 8 ≤ (c.input.drop c.offset).length ∧ v = arrayElem w (c.input.drop c.offset) 0 ∧
      c'.input.drop c'.offset = (c.input.drop c.offset).drop (w.bits / 8)) ∧
    (∀ e, (match c.readBe (w.bits / 8) with
      | none => (.err (.overrun (w.bits / 8) c.offset) : Outcome DecodeErr (Value × ReadCtxt))
      | some (n, buf') => do
        let v ← Outcome.ofPanicky (Value.mkNum (.fixed w) n)
        .ok (v, buf')) = .err e → (c.input.drop c.offset).length < w.bits / 8) := by
    intro w hw
    unfold ReadCtxt.readBe
    by_cases hle : c.offset + w.bits / 8 ≤ c.input.length
    · rw [if_pos hle]
      simp only
      constructor
      · intro v c' h
        obtain ⟨u, h1, h2⟩ := Outcome.bind_eq_ok.mp h
        cases h2
        have h1 := Outcome.ofPanicky_eq_ok.mp h1
        refine ⟨by rw [List.length_drop]; omega, ?_, by simp⟩
        unfold Value.mkNum at h1
        split at h1
        · next hlt =>
          cases h1
          unfold arrayElem
          simp only [Nat.zero_mul, List.drop_zero]
          congr 1
          exact Fin.ext (Nat.mod_eq_of_lt hlt).symm
        · cases h1
      · intro e h
        cases hm : Value.mkNum (.fixed w) (fromBeBytes ((c.input.drop c.offset).take (w.bits / 8))) with
        | panic => rw [hm] at h; cases h
        | ok v => rw [hm] at h; cases h
    · rw [if_neg hle]
      exact ⟨(fun _ _ h => nomatch h), fun e h => by rw [List.length_drop]; omega⟩
  unfold Decoder.readBase
  cases hw : kind.width with
  | b8 =>
    simp only
    cases hr : c.readByte with
    | none =>
      refine ⟨(fun _ _ h => nomatch h), fun _ _ => ?_⟩
      rw [rest_nil hr]; decide
    | some xc =>
      refine ⟨?_, (fun _ h => nomatch h)⟩
      intro v c' h
      cases h
      rw [readByte_rest (x := xc.1) (c' := xc.2) hr]
      refine ⟨by show 1 ≤ _; simp, ?_, rfl⟩
      unfold arrayElem Value.u8
      congr 1
      refine Fin.ext ?_
      have : fromBeBytes [xc.1] = xc.1.toNat := by simp [fromBeBytes]
      show xc.1.toNat = fromBeBytes [xc.1] % _
      rw [this]; exact (Nat.mod_eq_of_lt xc.1.toNat_lt).symm
  | b16 =>
    have hb : kind.be = true := hk.resolve_right (by rw [hw]; decide)
    simp only [hb, if_true]; exact hbe .b16 (by decide)
  | b32 =>
    have hb : kind.be = true := hk.resolve_right (by rw [hw]; decide)
    simp only [hb, if_true]; exact hbe .b32 (by decide)
  | b64 =>
    have hb : kind.be = true := hk.resolve_right (by rw [hw]; decide)
    simp only [hb, if_true]; exact hbe .b64 (by decide)

theorem readArray_sim {kind : BaseKind} (hk : kind.be = true ∨ kind.width = .b8) : ∀ (n : Nat) (c : ReadCtxt)
    (acc : List Value),
    (∀ vs, Decoder.readArrayLoop kind n c acc = .ok vs →
      n * (kind.width.bits / 8) ≤ (c.input.drop c.offset).length ∧
      vs = acc ++ (List.range n).map (arrayElem kind.width (c.input.drop c.offset))) ∧
    (∀ e, Decoder.readArrayLoop kind n c acc = .err e →
      (c.input.drop c.offset).length < n * (kind.width.bits / 8))
  | 0, c, acc => ⟨(fun vs h => by cases h; simp), (fun _ h => nomatch h)⟩
  | n + 1, c, acc => by
    obtain ⟨b1, b2⟩ := readBase_sim hk c
    simp only [Decoder.readArrayLoop]
    have hmul : (n + 1) * (kind.width.bits / 8) = n * (kind.width.bits / 8) + kind.width.bits / 8 := by
      rw [Nat.add_mul, Nat.one_mul]
    cases hr : Decoder.readBase c kind with
    | panic => exact ⟨(fun _ h => nomatch h), (fun _ h => nomatch h)⟩
    | fuel => exact ⟨(fun _ h => nomatch h), (fun _ h => nomatch h)⟩
    | err e =>
      refine ⟨(fun _ h => nomatch h), fun _ _ => ?_⟩
      have := b2 e hr
      omega
    | ok r =>
      obtain ⟨v, c'⟩ := r
      obtain ⟨h1, h2, h3⟩ := b1 v c' hr
      obtain ⟨i1, i2⟩ := readArray_sim hk n c' (acc ++ [v])
      simp only [Outcome.bind_ok]
      rw [h3] at i1 i2
      rw [List.length_drop] at i1 i2
      constructor
      · intro vs h
        obtain ⟨g1, g2⟩ := i1 vs h
        refine ⟨by omega, ?_⟩
        rw [g2, List.range_succ_eq_map, List.map_cons, List.map_map, h2, List.append_assoc]
        refine congrArg (acc ++ ·) ?_
        refine congrArg (arrayElem kind.width (c.input.drop c.offset) 0 :: ·) ?_
        apply List.map_congr_left
        intro i _
        exact (arrayElem_succ _ _ _).symm
      · intro e h
        have := i2 e h
        omega

theorem erlNums {σ : Type} (f : σ → Value) (hf : ∀ x, ∃ k n, f x = .num k n) (l : List σ) :
    ER (.seq (.strict (l.map f))) (.seq (.strict (l.map f))) := by
  refine ERL.seq ⟨?_, ?_⟩
  · intro v hv
    obtain ⟨x, _, rfl⟩ := List.mem_map.mp hv
    obtain ⟨k, n, h⟩ := hf x
    rw [h]; exact trivial
  · rw [List.map_map]
    apply List.map_congr_left
    intro x _
    obtain ⟨k, n, h⟩ := hf x
    simp only [Function.comp_apply, h, erase]

end Gen
end Doodle
