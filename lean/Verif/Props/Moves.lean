import Verif.Props.Parser

/-!
C47: moving the cursor of the runtime parser lands exactly where the call says, or changes nothing.
-/

namespace Doodle
namespace Rt

/-- Byte position `k` is inside the buffer and not past the end of any open slice. -/
def Fits (p : Parser) (k : Nat) : Prop :=
  k ≤ p.buffer.length ∧ ∀ e ∈ openSlices p.stack, 8 * k ≤ bitPos e

theorem fits_iff {p : Parser} {k m : Nat} (hi : Inv p) (hlp : limPos p.buffer.length p.stack = 8 * m)
    (hm : m ≤ p.buffer.length) : Fits p k ↔ k ≤ m := by
  constructor
  · intro ⟨h1, h2⟩
    have hlim : limPos p.buffer.length p.stack = 8 * m := hlp
    unfold limPos at hlim
    rcases limit_cases p.buffer.length p.stack with hc | ⟨e, he, hc⟩
    · rw [hc] at hlim; simp only [Option.getD_none, bitPos] at hlim; omega
    · rw [hc] at hlim; have := h2 e he; simp only [Option.getD_some] at hlim; omega
  · intro hle
    refine ⟨by omega, fun e he => ?_⟩
    have := limPos_le_open hi.wf e he
    omega

theorem tryIncrement_bytes {p : Parser} {n d m : Nat} (ho : p.offset = .bytes n)
    (hl : p.currentLimit = .bytes m) (hu : n + d < usizeCard) :
    (n + d ≤ m → p.tryIncrement d = .ok (.bytes n) { p with offset := .bytes (n + d) }) ∧
    (m < n + d → ∃ e, p.tryIncrement d = .err e p) := by
  have hinc : p.offset.incrementBy d = .ok (.bytes (n + d)) := by
    rw [ho]
    show (addUsize n d >>= fun m => Panicky.ok (ByteOffset.bytes m)) = _
    rw [addUsize_ok hu]
    rfl
  rcases tryIncrement_cases hinc with ⟨hg, hr⟩ | ⟨hg, hr⟩ <;> rw [hl, gt_bytes] at hg
  · have := of_decide_eq_false hg
    refine ⟨fun _ => ?_, fun hlt => by omega⟩
    rw [hr, ho]
  · have := of_decide_eq_true hg
    exact ⟨fun hle => by omega, fun _ => hr⟩

/-- **C47.**  `advance_by(d)` moves the cursor by exactly `d` bytes if that position is inside the buffer and
every open slice; otherwise it fails and changes nothing. -/
theorem C47_advance (buf : List UInt8) (start : Nat) (ops : List Op) (p : Parser) (n d : Nat)
    (hd : n + d < usizeCard) (hn : .enterBitsMode ∉ ops)
    (h : run (.ofView buf start) ops = .ok p) (ho : p.offset = .bytes n) :
    (Fits p (n + d) → p.advanceBy d = .ok () { p with offset := .bytes (n + d) }) ∧
    (¬ Fits p (n + d) → ∃ e, p.advanceBy d = .err e p) := by
  obtain ⟨hi, hb⟩ := bytes_reach hn h
  obtain ⟨m, hl, hlp, hm⟩ := limit_bytes hi hb
  rw [fits_iff hi hlp hm]
  obtain ⟨h1, h2⟩ := tryIncrement_bytes ho hl hd
  constructor
  · intro hf; unfold Parser.advanceBy; rw [h1 hf]; rfl
  · intro hf
    obtain ⟨e, he⟩ := h2 (by omega)
    exact ⟨e, by unfold Parser.advanceBy; rw [he]; rfl⟩

/-- **C47.**  `skip_align(k)` moves the cursor to the first multiple `t` of `k` at or after it, if `t` is
inside the buffer and every open slice; otherwise it fails and changes nothing. -/
theorem C47_align (buf : List UInt8) (start : Nat) (ops : List Op) (p : Parser) (n k t : Nat)
    (hk : k ∣ t) (hnt : n ≤ t) (htk : t < n + k) (ht : t < usizeCard) (hn : .enterBitsMode ∉ ops)
    (h : run (.ofView buf start) ops = .ok p) (ho : p.offset = .bytes n) :
    (Fits p t → p.skipAlign k = .ok () { p with offset := .bytes t }) ∧
    (¬ Fits p t → ∃ e, p.skipAlign k = .err e p) := by
  obtain ⟨c, rfl⟩ := hk
  have hk0 : k ≠ 0 := by rintro rfl; omega
  have key : p.skipAlign k = p.advanceBy (k * c - n) := by
    unfold Parser.skipAlign
    rw [if_neg hk0, ho]
    simp only
    by_cases hz : n % k = 0
    · have hc : k * c = n := by
        obtain ⟨q, rfl⟩ := Nat.dvd_of_mod_eq_zero hz
        have h1 : q ≤ c := Nat.le_of_mul_le_mul_left hnt (by omega)
        have h2 : k * c < k * (q + 1) := by rw [Nat.mul_add]; omega
        have h3 : c < q + 1 := Nat.lt_of_mul_lt_mul_left h2
        rw [show c = q by omega]
      rw [if_pos hz, hc]
      simp only [OpRes.lift, OpRes.bind, ho, ByteOffset.delta, ByteOffset.isBitMode, Bool.false_eq_true,
        if_false, ByteOffset.asBytes, subUsize, Nat.le_refl, if_true]
    · have hlt := Nat.mod_lt n (Nat.pos_of_ne_zero hk0)
      have hdm := Nat.div_add_mod n k
      have hc : c = n / k + 1 := by
        have h1 : k * (n / k) < k * c := by omega
        have h2 : n / k < c := Nat.lt_of_mul_lt_mul_left h1
        have h3 : k * c < k * (n / k + 2) := by rw [Nat.mul_add]; omega
        have h4 : c < n / k + 2 := Nat.lt_of_mul_lt_mul_left h3
        omega
      have hmul : mulUsize (n / k + 1) k = .ok (k * c) := by
        unfold mulUsize
        rw [← hc, Nat.mul_comm c k, if_pos ht]
      rw [if_neg hz, hmul]
      show OpRes.bind (OpRes.bind (OpRes.lift p (Panicky.ok (ByteOffset.bytes (k * c)))) _) _ = _
      simp only [OpRes.lift, OpRes.bind, ho, ByteOffset.delta, ByteOffset.isBitMode, Bool.false_eq_true,
        if_false, ByteOffset.asBytes, subUsize, hnt, if_true]
  have := C47_advance buf start ops p n (k * c - n) (by omega) hn h ho
  rw [show n + (k * c - n) = k * c by omega] at this
  rw [key]
  exact this

/-- There is such a multiple for every `k` except 0. -/
example (n k : Nat) (hk : 0 < k) : ∃ t, k ∣ t ∧ n ≤ t ∧ t < n + k := by
  have h1 := Nat.div_add_mod (n + (k - 1)) k
  have h2 := Nat.mod_lt (n + (k - 1)) hk
  exact ⟨k * ((n + (k - 1)) / k), Nat.dvd_mul_right _ _, by omega, by omega⟩

/-- In bit mode the multiple is counted from where bit mode was entered. -/
theorem C47_align_bits (p q : Parser) (s a k : Nat) (ho : p.offset = .bits s a)
    (h : p.skipAlign k = .ok () q) :
    ∃ t, k ∣ t ∧ a ≤ t ∧ t < a + k ∧ q = { p with offset := .bits s t } := by
  unfold Parser.skipAlign at h
  split at h
  · cases h
  rename_i hk0
  rw [ho] at h
  simp only at h
  obtain ⟨d, p1, h1, h2⟩ := OpRes.bind_eq_ok.mp h
  obtain ⟨o, p0, h3, h4⟩ := OpRes.bind_eq_ok.mp h1
  have step : ∀ t, o = .bits s t → a ≤ t → p0 = p → q = { p with offset := .bits s t } := by
    rintro t rfl hat rfl
    rw [ho] at h4
    cases hd : ByteOffset.delta (.bits s a) (.bits s t) with
    | panic => rw [hd] at h4; cases h4
    | ok d' =>
      rw [hd] at h4
      cases h4
      obtain ⟨x, hx, hd2⟩ := Panicky.bind_eq_ok.mp hd
      obtain ⟨y, hy, hd3⟩ := Panicky.bind_eq_ok.mp hd2
      obtain ⟨m1, hm1, hx2⟩ := Panicky.bind_eq_ok.mp hx
      obtain ⟨m2, hm2, hy2⟩ := Panicky.bind_eq_ok.mp hy
      rw [hm1] at hm2
      cases hm2
      unfold addUsize at hx2 hy2
      unfold subUsize at hd3
      split at hx2 <;> cases hx2
      split at hy2 <;> cases hy2
      split at hd3 <;> cases hd3
      unfold Parser.advanceBy at h2
      obtain ⟨old, p2, h5, h6⟩ := OpRes.bind_eq_ok.mp h2
      cases h6
      unfold Parser.tryIncrement at h5
      split at h5
      · cases h5
      · rename_i after hinc
        rw [ho] at hinc
        obtain ⟨z, hz, hz2⟩ := Panicky.bind_eq_ok.mp hinc
        unfold addUsize at hz
        split at hz <;> cases hz
        cases hz2
        have hsum : a + (m1 + t - (m1 + a)) = t := by omega
        rw [hsum] at h5
        split at h5 <;> (split at h5 <;> cases h5) <;> rfl
  by_cases hz : a % k = 0
  · rw [if_pos hz] at h3
    cases h3
    exact ⟨a, Nat.dvd_of_mod_eq_zero hz, Nat.le_refl _, by omega, step a rfl (Nat.le_refl _) rfl⟩
  · rw [if_neg hz] at h3
    unfold mulUsize at h3
    split at h3
    · cases h3
      have hlt := Nat.mod_lt a (Nat.pos_of_ne_zero hk0)
      have hdm := Nat.div_add_mod a k
      have he : (a / k + 1) * k = k * (a / k) + k := by rw [Nat.add_mul, Nat.mul_comm]; omega
      exact ⟨(a / k + 1) * k, Nat.dvd_mul_left _ _, by omega, by omega, step _ rfl (by omega) rfl⟩
    · cases h3

/-- **C47.**  A jump to absolute position `dest` lands exactly there.  A destination at or after the cursor is
reached by advancing, and must be inside the buffer and every open slice; one before the cursor is reached by
a seek, which leaves the slices around it; one before the start of the parser's view is refused. -/
theorem C47_seek (buf : List UInt8) (start : Nat) (ops : List Op) (p : Parser) (n dest : Nat)
    (hd : dest < usizeCard) (hn : .enterBitsMode ∉ ops)
    (h : run (.ofView buf start) ops = .ok p) (ho : p.offset = .bytes n) :
    (dest < start → p.advanceOrSeek dest = .err .negativeIndex p) ∧
    (start + n ≤ dest → Fits p (dest - start) →
      p.advanceOrSeek dest =
        .ok true { p with offset := .bytes (dest - start), stack := .peek (.bytes n) :: p.stack }) ∧
    (start + n ≤ dest → ¬ Fits p (dest - start) → ∃ e, p.advanceOrSeek dest = .err e p.openPeek) ∧
    (start ≤ dest → dest < start + n →
      p.advanceOrSeek dest =
        .ok false { p with offset := .bytes (dest - start), stack := .seek false (.bytes n) :: p.stack }) := by
  obtain ⟨hi, hb⟩ := bytes_reach hn h
  obtain ⟨m, hl, hlp, hm⟩ := limit_bytes hi hb
  have hst : p.startOffset = start := (run_buffer h).2.1
  have hmax : p.maxOffset = .bytes p.buffer.length := by
    rw [(run_buffer h).1]; exact (run_buffer h).2.2
  rw [fits_iff hi hlp hm]
  have hcd : ∀ t, p.offset.checkedDelta (.bytes t) = .ok (if n ≤ t then some (t - n) else none) := by
    intro t
    rw [ho]
    rfl
  have hlp' : p.openPeek.currentLimit = .bytes m := hl
  unfold Parser.advanceOrSeek
  rw [hst, hcd]
  refine ⟨fun hlt => by rw [if_pos hlt], fun hle hf => ?_, fun hle hf => ?_, fun hle hlt => ?_⟩
  · rw [if_neg (by omega), if_pos (by omega)]
    simp only
    rw [(tryIncrement_bytes (p := p.openPeek) ho hlp' (by omega)).1 (by omega)]
    simp only [OpRes.bind, Parser.openPeek, ho]
    rw [show n + (dest - start - n) = dest - start by omega, hst]
  · rw [if_neg (by omega), if_pos (by omega)]
    simp only
    obtain ⟨e, he⟩ := (tryIncrement_bytes (p := p.openPeek) ho hlp'
      (d := dest - start - n) (by omega)).2 (by omega)
    exact ⟨e, by rw [he]; rfl⟩
  · rw [if_neg (by omega), if_neg (by omega)]
    simp only
    have hcur := hi.cur
    rw [ho, hlp] at hcur
    simp only [bitPos] at hcur
    unfold Parser.seekToOffset
    simp only
    rw [hmax, gt_bytes, decide_eq_false (by omega)]
    simp only [Bool.false_eq_true, if_false, ho, ByteOffset.isBitMode]
    cases hg : ViewStack.getLimit p.stack <;> simp [OpRes.bind, hst]

/-- **C47.**  In bit mode a jump to a byte position at or after the cursor, even to the very place the cursor
is at, either lands on bit 0 of that byte (staying in bit mode and inside the open slices) or fails without
moving. -/
theorem C47_seek_bits (p : Parser) (s a dest : Nat) (ho : p.offset = .bits s a)
    (hst : p.startOffset ≤ dest) (hu : 8 * dest < usizeCard)
    (hle : 8 * s + a ≤ 8 * (dest - p.startOffset)) :
    (∃ t, 8 * s + t = 8 * (dest - p.startOffset) ∧
      p.advanceOrSeek dest =
        .ok true { p with offset := .bits s t, stack := .peek (.bits s a) :: p.stack }) ∨
    ∃ e, p.advanceOrSeek dest = .err e p.openPeek := by
  have h1 : mulUsize (dest - p.startOffset) 8 = .ok (8 * (dest - p.startOffset)) := by
    unfold mulUsize
    rw [if_pos (by omega), Nat.mul_comm]
  have h2 : mulUsize s 8 = .ok (8 * s) := by
    unfold mulUsize
    rw [if_pos (by omega), Nat.mul_comm]
  have hcd : p.offset.checkedDelta (.bytes (dest - p.startOffset)) =
      .ok (some (8 * (dest - p.startOffset) - (8 * s + a))) := by
    rw [ho]
    show (mulUsize (dest - p.startOffset) 8 >>= fun x => (mulUsize s 8 >>= fun m => addUsize m a) >>= fun y =>
      Panicky.ok (if y ≤ x then some (x - y) else none)) = _
    rw [h1, h2]
    show (addUsize (8 * s) a >>= fun y => Panicky.ok (if y ≤ _ then some (_ - y) else none)) = _
    rw [addUsize_ok (by omega)]
    show Panicky.ok (if _ ≤ _ then some _ else none) = _
    rw [if_pos hle]
  have hinc : p.openPeek.offset.incrementBy (8 * (dest - p.startOffset) - (8 * s + a)) =
      .ok (.bits s (a + (8 * (dest - p.startOffset) - (8 * s + a)))) := by
    show p.offset.incrementBy _ = _
    rw [ho]
    show (addUsize a _ >>= fun m => Panicky.ok (ByteOffset.bits s m)) = _
    rw [addUsize_ok (by omega)]
    rfl
  unfold Parser.advanceOrSeek
  rw [if_neg (by omega), hcd]
  simp only
  rcases tryIncrement_cases hinc with ⟨_, hr⟩ | ⟨_, e, hr⟩
  · refine .inl ⟨a + (8 * (dest - p.startOffset) - (8 * s + a)), by omega, ?_⟩
    rw [hr]
    simp only [OpRes.bind, Parser.openPeek, ho]
  · exact .inr ⟨e, by rw [hr]; rfl⟩

/-- In bit mode a jump to a byte before the cursor is never carried out: it panics (or is refused, before the
start of the view). -/
theorem C47_seek_bits_back (p : Parser) (s a dest : Nat) (ho : p.offset = .bits s a)
    (hlt : 8 * (dest - p.startOffset) < 8 * s + a) (b : Bool) (q : Parser) :
    p.advanceOrSeek dest ≠ .ok b q := by
  intro h
  unfold Parser.advanceOrSeek at h
  split at h
  · cases h
  · split at h
    · cases h
    · rename_i delta hd
      rw [ho] at hd
      obtain ⟨x, hx, hd2⟩ := Panicky.bind_eq_ok.mp hd
      obtain ⟨y, hy, hd3⟩ := Panicky.bind_eq_ok.mp hd2
      obtain ⟨m, hm, hy2⟩ := Panicky.bind_eq_ok.mp hy
      change mulUsize (dest - p.startOffset) 8 = .ok x at hx
      unfold mulUsize at hx hm
      unfold addUsize at hy2
      split at hx <;> cases hx
      split at hm <;> cases hm
      split at hy2 <;> cases hy2
      split at hd3
      · omega
      · cases hd3
    · obtain ⟨o, p1, h1, _⟩ := OpRes.bind_eq_ok.mp h
      unfold Parser.seekToOffset at h1
      simp only [ho, ByteOffset.isBitMode, if_true] at h1
      split at h1 <;> cases h1

/-- Jumping to the place the cursor is at, in bit mode. -/
example : ∃ p q, run (.new [1, 2, 3]) [.readByte, .enterBitsMode] = .ok p ∧ p.advanceOrSeek 1 = .ok true q ∧
    q.offset = .bits 1 0 :=
  ⟨_, _, rfl, by with_unfolding_all rfl, rfl⟩

/-- **C47.**  `skip_remainder` puts the cursor at the end of the buffer or of the tightest open slice: it does
not move back, the position still fits, and no later one does. -/
theorem C47_skip_remainder (buf : List UInt8) (start : Nat) (ops : List Op) (p : Parser) (n : Nat)
    (hn : .enterBitsMode ∉ ops)
    (h : run (.ofView buf start) ops = .ok p) (ho : p.offset = .bytes n) :
    ∃ m, p.skipRemainder = { p with offset := .bytes m } ∧ n ≤ m ∧ ∀ k, Fits p k ↔ k ≤ m := by
  obtain ⟨hi, hb⟩ := bytes_reach hn h
  obtain ⟨m, hl, hlp, hm⟩ := limit_bytes hi hb
  have hcur := hi.cur
  rw [ho, hlp] at hcur
  simp only [bitPos] at hcur
  exact ⟨m, by unfold Parser.skipRemainder; rw [hl], by omega, fun k => fits_iff hi hlp hm⟩

/-- **C47.**  On a parser made from a whole buffer the reported position is the one a jump understands:
jumping to it stays put.  (Missing: parsers made from a view, see `C47_position_refuted`.) -/
theorem C47_position_partial (buf : List UInt8) (ops : List Op) (p : Parser) (n : Nat)
    (hlen : buf.length < usizeCard) (hn : .enterBitsMode ∉ ops)
    (h : run (.new buf) ops = .ok p) (ho : p.offset = .bytes n) :
    p.getOffsetU64 = .ok n ∧ p.advanceOrSeek n = .ok true p.openPeek := by
  refine ⟨by unfold Parser.getOffsetU64; rw [ho], ?_⟩
  obtain ⟨hi, hb⟩ := bytes_reach hn h
  obtain ⟨m, hl, hlp, hm⟩ := limit_bytes hi hb
  have hcur := hi.cur
  rw [ho, hlp] at hcur
  simp only [bitPos] at hcur
  have hbuf : p.buffer = buf := (run_buffer h).1
  have hs := (C47_seek buf 0 ops p n n (by rw [← hbuf] at hlen; omega) hn h ho).2.1 (by omega)
    ((fits_iff hi hlp hm).mpr (by omega))
  rw [hs]
  unfold Parser.openPeek
  rw [ho, Nat.sub_zero]

/-- A parser made from a view reports its position from the start of the view, but jumps count from the start
of the buffer: in the view of `[1, 2, 3, 4]` that starts at 2, after one read the reported position is 1, and
jumping there is refused. -/
theorem C47_position_refuted : ∃ (buf : List UInt8) (start : Nat) (ops : List Op) (p : Parser) (n : Nat),
    Op.enterBitsMode ∉ ops ∧ run (.ofView buf start) ops = .ok p ∧ p.getOffsetU64 = .ok n ∧
    p.advanceOrSeek n = .err .negativeIndex p :=
  ⟨[3, 4], 2, [.readByte], _, 1, by decide, rfl, rfl, rfl⟩

/-- Alignment to a multiple of zero panics. -/
theorem C47_align_zero_panics (p : Parser) : p.skipAlign 0 = .panic := rfl

/-- A history that meets the hypotheses: three bytes read, an open slice of four, aligned to 4. -/
example : run (.new [1, 2, 3, 4, 5, 6, 7, 8]) [.advanceBy 3, .startSlice 4, .skipAlign 4] = .ok
    { buffer := [1, 2, 3, 4, 5, 6, 7, 8], startOffset := 0, offset := .bytes 4,
      stack := [.slice (.bytes 7)], maxOffset := .bytes 8 } := by
  decide +kernel

example : ∃ p, run (.new [1, 2, 3, 4, 5, 6, 7, 8]) [.advanceBy 3, .startSlice 4] = .ok p ∧
    p.offset = .bytes 3 ∧ Fits p 7 ∧ ¬ Fits p 8 :=
  ⟨_, rfl, rfl, ⟨by decide, fun e he => by
    rw [show openSlices _ = [.bytes 7] from rfl] at he
    rw [List.mem_singleton.mp he]; decide⟩,
   fun hf => by
    have := hf.2 (.bytes 7) (List.mem_cons_self)
    revert this
    decide⟩

end Rt
end Doodle
