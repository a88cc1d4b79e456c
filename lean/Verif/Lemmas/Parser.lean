import Verif.Spec.Window

/-! Lemmas about the runtime parser. -/

namespace Doodle
namespace Rt

theorem compare_lt {a b : Nat} (h : a < b) : compare a b = .lt := Nat.compare_eq_lt.mpr h
theorem compare_gt {a b : Nat} (h : b < a) : compare a b = .gt := Nat.compare_eq_gt.mpr h
theorem compare_eq {a b : Nat} (h : a = b) : compare a b = .eq := Nat.compare_eq_eq.mpr h

theorem gt_bytes (n m : Nat) : (ByteOffset.bytes n).gt (.bytes m) = decide (m < n) := by
  simp only [ByteOffset.gt, ByteOffset.partialCmp, ByteOffset.asBytes]
  rcases Nat.lt_trichotomy n m with h | h | h
  · rw [compare_lt h, decide_eq_false (by omega)]; rfl
  · rw [compare_eq h, decide_eq_false (by omega)]; rfl
  · rw [compare_gt h, decide_eq_true h]; rfl

theorem gt_bytes_bits (n s a : Nat) : (ByteOffset.bytes n).gt (.bits s a) = decide (s + a / 8 < n) := by
  simp only [ByteOffset.gt, ByteOffset.partialCmp, ByteOffset.asBytes]
  rcases Nat.lt_trichotomy n (s + a / 8) with h | h | h
  · rw [compare_lt h, decide_eq_false (by omega)]; rfl
  · rw [compare_eq h, decide_eq_false (by omega)]; rfl
  · rw [compare_gt h, decide_eq_true h]; rfl

theorem gt_bits_bytes (s a m : Nat) : (ByteOffset.bits s a).gt (.bytes m) = decide (m < s + a / 8) := by
  simp only [ByteOffset.gt, ByteOffset.partialCmp, ByteOffset.asBytes]
  rcases Nat.lt_trichotomy (s + a / 8) m with h | h | h
  · rw [compare_lt h, decide_eq_false (by omega)]; rfl
  · rw [compare_eq h, decide_eq_false (by omega)]; rfl
  · rw [compare_gt h, decide_eq_true h]; rfl

theorem gt_bits (s a t b : Nat) :
    (ByteOffset.bits s a).gt (.bits t b) = decide (8 * t + b < 8 * s + a) := by
  simp only [ByteOffset.gt, ByteOffset.partialCmp, ByteOffset.asBytes]
  rcases Nat.lt_trichotomy (s + a / 8) (t + b / 8) with h | h | h
  · rw [compare_lt h, decide_eq_false (by omega)]; rfl
  · rw [compare_eq h]
    rcases Nat.lt_trichotomy (a % 8) (b % 8) with h' | h' | h'
    · simp only [compare_lt h']; rw [decide_eq_false (by omega)]; rfl
    · simp only [compare_eq h']; rw [decide_eq_false (by omega)]; rfl
    · simp only [compare_gt h']; rw [decide_eq_true (by omega)]; rfl
  · rw [compare_gt h, decide_eq_true (by omega)]; rfl

/-- an offset in bytes that is not above another offset is not above it in bits either -/
theorem le_of_not_gt_bytes {n : Nat} {o : ByteOffset} (h : (ByteOffset.bytes n).gt o = false) :
    8 * n ≤ bitPos o := by
  cases o with
  | bytes m => rw [gt_bytes] at h; have := of_decide_eq_false h; simp only [bitPos]; omega
  | bits s a => rw [gt_bytes_bits] at h; have := of_decide_eq_false h; simp only [bitPos]; omega

theorem addUsize_eq_ok {a b c : Nat} (h : addUsize a b = .ok c) : c = a + b ∧ a + b < usizeCard := by
  unfold addUsize at h
  split at h
  · cases h; exact ⟨rfl, by assumption⟩
  · cases h

theorem mulUsize_eq_ok {a b c : Nat} (h : mulUsize a b = .ok c) : c = a * b ∧ a * b < usizeCard := by
  unfold mulUsize at h
  split at h
  · cases h; exact ⟨rfl, by assumption⟩
  · cases h

theorem subUsize_eq_ok {a b c : Nat} (h : subUsize a b = .ok c) : b ≤ a ∧ c = a - b := by
  unfold subUsize at h
  split at h
  · cases h; exact ⟨by assumption, rfl⟩
  · cases h

theorem incrementBy_eq_ok {o o' : ByteOffset} {d : Nat} (h : o.incrementBy d = .ok o') :
    (∃ n, o = .bytes n ∧ o' = .bytes (n + d) ∧ n + d < usizeCard) ∨
    (∃ s a, o = .bits s a ∧ o' = .bits s (a + d) ∧ a + d < usizeCard) := by
  cases o with
  | bytes n =>
    obtain ⟨m, hm, h2⟩ := Panicky.bind_eq_ok.mp h
    obtain ⟨rfl, hlt⟩ := addUsize_eq_ok hm
    cases h2
    exact .inl ⟨n, rfl, rfl, hlt⟩
  | bits s a =>
    obtain ⟨m, hm, h2⟩ := Panicky.bind_eq_ok.mp h
    obtain ⟨rfl, hlt⟩ := addUsize_eq_ok hm
    cases h2
    exact .inr ⟨s, a, rfl, rfl, hlt⟩

theorem absBitOffset_eq_ok {o : ByteOffset} {k : Nat} (h : o.absBitOffset = .ok k) : k = bitPos o := by
  cases o with
  | bytes n => obtain ⟨rfl, _⟩ := mulUsize_eq_ok h; simp only [bitPos]; omega
  | bits s a =>
    obtain ⟨m, hm, h2⟩ := Panicky.bind_eq_ok.mp h
    obtain ⟨rfl, _⟩ := mulUsize_eq_ok hm
    obtain ⟨rfl, _⟩ := addUsize_eq_ok h2
    simp only [bitPos]; omega

theorem delta_bits_eq_ok {s a k : Nat} {o : ByteOffset} (h : (ByteOffset.bits s a).delta o = .ok k) :
    8 * s + a ≤ bitPos o ∧ k = bitPos o - (8 * s + a) := by
  simp only [ByteOffset.delta, ByteOffset.isBitMode, if_true] at h
  obtain ⟨x, hx, h2⟩ := Panicky.bind_eq_ok.mp h
  obtain ⟨y, hy, h3⟩ := Panicky.bind_eq_ok.mp h2
  have := absBitOffset_eq_ok hx
  have := absBitOffset_eq_ok hy
  obtain ⟨hle, rfl⟩ := subUsize_eq_ok h3
  simp only [bitPos] at *
  subst x y
  exact ⟨hle, rfl⟩

theorem delta_bytes_eq_ok {n k : Nat} {o : ByteOffset} (h : (ByteOffset.bytes n).delta o = .ok k) :
    ∃ m, o = .bytes m ∧ n ≤ m ∧ k = m - n := by
  cases o with
  | bytes m =>
    simp only [ByteOffset.delta, ByteOffset.isBitMode, Bool.false_eq_true, if_false,
      ByteOffset.asBytes] at h
    obtain ⟨hle, rfl⟩ := subUsize_eq_ok h
    exact ⟨m, rfl, hle, rfl⟩
  | bits s a => simp [ByteOffset.delta, ByteOffset.isBitMode] at h

/-- the position of the limit that a stack imposes on a buffer of `len` bytes -/
def limPos (len : Nat) (s : ViewStack) : Nat := bitPos ((ViewStack.getLimit s).getD (.bytes len))

/-- what every context on the stack remembers lies inside the window below it -/
def WF (len : Nat) : ViewStack → Prop
  | [] => True
  | .slice e :: rest => bitPos e ≤ limPos len rest ∧ WF len rest
  | .alts c :: rest => bitPos c ≤ limPos len rest ∧ WF len rest
  | .peek c :: rest => bitPos c ≤ limPos len rest ∧ WF len rest
  | .peekNot c :: rest => bitPos c ≤ limPos len rest ∧ WF len rest
  | .seek _ c :: rest => bitPos c ≤ limPos len rest ∧ WF len rest

theorem limPos_le {len : Nat} : ∀ {s : ViewStack}, WF len s → limPos len s ≤ 8 * len
  | [], _ => Nat.le_refl _
  | .slice _ :: _, h => Nat.le_trans h.1 (limPos_le h.2)
  | .alts _ :: rest, h => limPos_le (s := rest) h.2
  | .peek _ :: rest, h => limPos_le (s := rest) h.2
  | .peekNot _ :: rest, h => limPos_le (s := rest) h.2
  | .seek true _ :: rest, h => limPos_le (s := rest) h.2
  | .seek false _ :: _, _ => Nat.le_refl _

theorem limPos_le_open {len : Nat} : ∀ {s : ViewStack}, WF len s → ∀ e ∈ openSlices s,
    limPos len s ≤ bitPos e
  | [], _, _, he => by cases he
  | .slice e :: rest, h, e', he => by
    rcases List.mem_cons.mp he with rfl | he'
    · exact Nat.le_refl _
    · exact Nat.le_trans h.1 (limPos_le_open h.2 e' he')
  | .alts _ :: rest, h, e, he => limPos_le_open (s := rest) h.2 e he
  | .peek _ :: rest, h, e, he => limPos_le_open (s := rest) h.2 e he
  | .peekNot _ :: rest, h, e, he => limPos_le_open (s := rest) h.2 e he
  | .seek true _ :: rest, h, e, he => limPos_le_open (s := rest) h.2 e he
  | .seek false _ :: _, _, e, he => by cases he

/-- the limit is the buffer end or one of the open slices -/
theorem limit_cases (len : Nat) : ∀ s : ViewStack,
    (ViewStack.getLimit s = none) ∨ ∃ e ∈ openSlices s, ViewStack.getLimit s = some e
  | [] => .inl rfl
  | .slice e :: _ => .inr ⟨e, List.mem_cons_self, rfl⟩
  | .alts _ :: rest => limit_cases len rest
  | .peek _ :: rest => limit_cases len rest
  | .peekNot _ :: rest => limit_cases len rest
  | .seek true _ :: rest => limit_cases len rest
  | .seek false _ :: _ => .inl rfl

/-- The invariant of all careful histories. -/
structure Inv (p : Parser) : Prop where
  max : p.maxOffset = .bytes p.buffer.length
  wf : WF p.buffer.length p.stack
  cur : bitPos p.offset ≤ limPos p.buffer.length p.stack

theorem currentLimit_eq {p : Parser} (h : p.maxOffset = .bytes p.buffer.length) :
    bitPos p.currentLimit = limPos p.buffer.length p.stack := by
  simp only [Parser.currentLimit, limPos, h]

theorem Inv.new (buf : List UInt8) (s : Nat) : Inv (Parser.ofView buf s) :=
  ⟨rfl, trivial, by simp [Parser.ofView, limPos, ViewStack.getLimit, bitPos]⟩

theorem Inv.inWindow {p : Parser} (h : Inv p) : InWindow p :=
  ⟨Nat.le_trans h.cur (limPos_le h.wf), fun e he => Nat.le_trans h.cur (limPos_le_open h.wf e he)⟩

theorem limPos_readable {p : Parser} (h : Inv p) (i : Nat) :
    Readable p i ↔ i < limPos p.buffer.length p.stack := by
  constructor
  · intro ⟨h1, h2⟩
    unfold limPos
    rcases limit_cases p.buffer.length p.stack with hl | ⟨e, he, hl⟩
    · rw [hl]; exact h1
    · rw [hl]; exact h2 e he
  · intro hi
    exact ⟨Nat.lt_of_lt_of_le hi (limPos_le h.wf),
      fun e he => Nat.lt_of_lt_of_le hi (limPos_le_open h.wf e he)⟩

theorem tryIncrement_cases {p : Parser} {d : Nat} {after : ByteOffset}
    (h : p.offset.incrementBy d = .ok after) :
    (after.gt p.currentLimit = false ∧ p.tryIncrement d = .ok p.offset { p with offset := after }) ∨
    (after.gt p.currentLimit = true ∧ ∃ e, p.tryIncrement d = .err e p) := by
  unfold Parser.tryIncrement Parser.currentLimit
  rw [h]
  cases hl : ViewStack.getLimit p.stack with
  | none =>
    simp only [Option.getD_none]
    cases hg : after.gt p.maxOffset with
    | false => exact .inl ⟨rfl, rfl⟩
    | true => exact .inr ⟨rfl, _, rfl⟩
  | some m =>
    simp only [Option.getD_some]
    cases hg : after.gt m with
    | false => exact .inl ⟨rfl, rfl⟩
    | true => exact .inr ⟨rfl, _, rfl⟩

/-- an increment the caller has checked stays inside the window -/
theorem tryIncrement_inv {p : Parser} {d : Nat} (hi : Inv p) (hc : Checked p d) :
    p.tryIncrement d = .panic ∨ (∃ e, p.tryIncrement d = .err e p) ∨
    ∃ o, p.tryIncrement d = .ok p.offset { p with offset := o } ∧ Inv { p with offset := o } := by
  cases hinc : p.offset.incrementBy d with
  | panic => left; unfold Parser.tryIncrement; rw [hinc]
  | ok after =>
    right
    rcases tryIncrement_cases hinc with ⟨hg, he⟩ | ⟨_, he⟩
    · right
      refine ⟨after, he, hi.max, hi.wf, ?_⟩
      rcases incrementBy_eq_ok hinc with ⟨n, h1, h2, _⟩ | ⟨s, a, h1, h2, _⟩
      · subst h2
        have := le_of_not_gt_bytes hg
        rw [currentLimit_eq hi.max] at this
        exact this
      · subst h2
        obtain ⟨r, hr, hle⟩ := hc (by rw [h1]; rfl)
        unfold Parser.remaining at hr
        rw [h1] at hr
        obtain ⟨h3, h4⟩ := delta_bits_eq_ok hr
        rw [currentLimit_eq hi.max] at h3 h4
        simp only [bitPos]
        omega
    · exact .inl he

theorem restore_wf {len : Nat} : ∀ {s : ViewStack} {o : ByteOffset} {rest : ViewStack}, WF len s →
    ViewStack.restore s = some (o, rest) → WF len rest ∧ bitPos o ≤ limPos len rest
  | [], _, _, _, h => by cases h
  | .slice _ :: s, o, rest, hw, h => restore_wf (s := s) hw.2 h
  | .alts _ :: s, o, rest, hw, h => restore_wf (s := s) hw.2 h
  | .peekNot _ :: s, o, rest, hw, h => restore_wf (s := s) hw.2 h
  | .peek _ :: s, o, rest, hw, h => by cases h; exact ⟨hw.2, hw.1⟩
  | .seek _ _ :: s, o, rest, hw, h => by cases h; exact ⟨hw.2, hw.1⟩

theorem recover_wf {len : Nat} : ∀ {s : ViewStack} {o : ByteOffset} {rest : ViewStack}, WF len s →
    ViewStack.recover s = some (o, rest) → WF len rest ∧ bitPos o ≤ limPos len rest
  | [], _, _, _, h => by cases h
  | .slice _ :: s, o, rest, hw, h => recover_wf (s := s) hw.2 h
  | .peek _ :: s, o, rest, hw, h => recover_wf (s := s) hw.2 h
  | .seek _ _ :: s, o, rest, hw, h => recover_wf (s := s) hw.2 h
  | .alts _ :: s, o, rest, hw, h => by cases h; exact ⟨hw.2, hw.1⟩
  | .peekNot _ :: s, o, rest, hw, h => by cases h; exact ⟨hw.2, hw.1⟩

theorem Inv.cleared {p : Parser} (h : Inv p) : Inv { p with stack := [] } :=
  ⟨h.max, trivial, by
    have := Nat.le_trans h.cur (limPos_le h.wf)
    simpa [limPos, ViewStack.getLimit, bitPos] using this⟩

theorem Inv.openPeek {p : Parser} (h : Inv p) : Inv p.openPeek := ⟨h.max, ⟨h.cur, h.wf⟩, h.cur⟩
theorem Inv.openPeekNot {p : Parser} (h : Inv p) : Inv p.openPeekNot := ⟨h.max, ⟨h.cur, h.wf⟩, h.cur⟩
theorem Inv.startAlt {p : Parser} (h : Inv p) : Inv p.startAlt := ⟨h.max, ⟨h.cur, h.wf⟩, h.cur⟩

theorem Inv.recover {p p' : Parser} (h : Inv p) : (∀ u, p.recover = .ok u p' → Inv p') ∧
    (∀ e, p.recover = .err e p' → Inv p') := by
  unfold Parser.recover
  cases hr : ViewStack.recover p.stack with
  | none =>
    simp only [reduceCtorEq, false_implies, implies_true, OpRes.err.injEq, true_and]
    intro e he
    rw [← he.2]
    exact h.cleared
  | some x =>
    obtain ⟨o, rest⟩ := x
    simp only [reduceCtorEq, false_implies, implies_true, OpRes.ok.injEq, and_true, forall_const]
    intro hu
    obtain ⟨h1, h2⟩ := recover_wf h.wf hr
    rw [← hu.2]
    exact ⟨h.max, h1, h2⟩

theorem Inv.closePeek {p p' : Parser} (h : Inv p) : (∀ u, p.closePeek = .ok u p' → Inv p') ∧
    (∀ e, p.closePeek = .err e p' → Inv p') := by
  unfold Parser.closePeek
  cases hr : ViewStack.restore p.stack with
  | none =>
    simp only [reduceCtorEq, false_implies, implies_true, OpRes.err.injEq, true_and]
    intro e he
    rw [← he.2]
    exact h.cleared
  | some x =>
    obtain ⟨o, rest⟩ := x
    simp only [reduceCtorEq, false_implies, implies_true, OpRes.ok.injEq, and_true, forall_const]
    intro hu
    obtain ⟨h1, h2⟩ := restore_wf h.wf hr
    rw [← hu.2]
    exact ⟨h.max, h1, h2⟩

theorem closeSliceFrom_inv {p : Parser} (h : Inv p) : ∀ {s : ViewStack}, WF p.buffer.length s → ∀ {p' : Parser},
    (∀ u, Parser.closeSliceFrom p s = .ok u p' → Inv p') ∧
    (∀ e, Parser.closeSliceFrom p s = .err e p' → Inv p')
  | [], _, p' => by
    refine ⟨(fun u hu => nomatch hu), (fun e he => ?_)⟩
    cases he
    exact h.cleared
  | .slice e :: rest, hw, p' => by
    unfold Parser.closeSliceFrom
    split
    · refine ⟨(fun u hu => nomatch hu), (fun e he => ?_)⟩
      cases he
      exact h.cleared
    · refine ⟨(fun u hu => ?_), (fun e he => nomatch he)⟩
      cases hu
      exact ⟨h.max, hw.2, hw.1⟩
  | .alts _ :: rest, hw, p' => closeSliceFrom_inv h (s := rest) hw.2
  | .peek _ :: rest, _, p' => ⟨(fun _ hu => nomatch hu), (fun _ he => nomatch he)⟩
  | .peekNot _ :: rest, _, p' => ⟨(fun _ hu => nomatch hu), (fun _ he => nomatch he)⟩
  | .seek _ _ :: rest, _, p' => ⟨(fun _ hu => nomatch hu), (fun _ he => nomatch he)⟩

/-- the invariant survives whatever `exec` keeps of an operation result -/
theorem keep_inv {α : Type} {r : OpRes α} {p' : Parser}
    (hok : ∀ a, r = .ok a p' → Inv p') (herr : ∀ e, r = .err e p' → Inv p')
    (h : (match r with
      | .ok _ q => Panicky.ok q
      | .err _ q => .ok q
      | .panic => .panic) = .ok p') : Inv p' := by
  cases r with
  | ok a q => simp only [Panicky.ok.injEq] at h; subst h; exact hok a rfl
  | err e q => simp only [Panicky.ok.injEq] at h; subst h; exact herr e rfl
  | panic => cases h

theorem tryIncrement_keeps {p p' : Parser} {d : Nat} (hi : Inv p) (hc : Checked p d) :
    (∀ o, p.tryIncrement d = .ok o p' → Inv p') ∧ (∀ e, p.tryIncrement d = .err e p' → Inv p') := by
  rcases tryIncrement_inv hi hc with h | ⟨e, h⟩ | ⟨o, h, hinv⟩
  · rw [h]; exact ⟨(fun _ h' => nomatch h'), (fun _ h' => nomatch h')⟩
  · rw [h]
    refine ⟨(fun _ h' => nomatch h'), (fun _ h' => ?_)⟩
    cases h'; exact hi
  · rw [h]
    refine ⟨(fun _ h' => ?_), (fun _ h' => nomatch h')⟩
    cases h'; exact hinv

theorem advanceBy_keeps {p p' : Parser} {d : Nat} (hi : Inv p) (hc : Checked p d) :
    (∀ o, p.advanceBy d = .ok o p' → Inv p') ∧ (∀ e, p.advanceBy d = .err e p' → Inv p') := by
  constructor
  · intro o h
    obtain ⟨a, q, h1, h2⟩ := OpRes.bind_eq_ok.mp h
    cases h2
    exact (tryIncrement_keeps hi hc).1 _ h1
  · intro e h
    rcases OpRes.bind_eq_err.mp h with h1 | ⟨a, q, _, h2⟩
    · exact (tryIncrement_keeps hi hc).2 _ h1
    · cases h2

theorem Inv.step {p p' : Parser} {op : Op} (hi : Inv p) (hc : Careful p op) (h : op.exec p = .ok p') :
    Inv p' := by
  cases op with
  | readByte =>
    refine keep_inv ?_ ?_ h
    · intro b hb
      obtain ⟨a, q, h1, h2⟩ := OpRes.bind_eq_ok.mp hb
      have hq := (tryIncrement_keeps hi hc).1 _ h1
      split at h2
      · cases h2
      · split at h2 <;> (cases h2; exact hq)
    · intro e he
      rcases OpRes.bind_eq_err.mp he with h1 | ⟨a, q, h1, h2⟩
      · exact (tryIncrement_keeps hi hc).2 _ h1
      · have hq := (tryIncrement_keeps hi hc).1 _ h1
        split at h2
        · cases h2; exact hq
        · split at h2 <;> cases h2
  | advanceBy n => exact keep_inv (advanceBy_keeps hi hc).1 (advanceBy_keeps hi hc).2 h
  | advanceOrSeek d =>
    have hb : p.offset.isBitMode = false := hc
    have key : (∀ b, p.advanceOrSeek d = .ok b p' → Inv p') ∧
        (∀ e, p.advanceOrSeek d = .err e p' → Inv p') := by
      unfold Parser.advanceOrSeek
      split
      · refine ⟨(fun _ h' => nomatch h'), (fun _ h' => ?_)⟩
        cases h'; exact hi
      · split
        · exact ⟨(fun _ h' => nomatch h'), (fun _ h' => nomatch h')⟩
        · have hk := fun d => tryIncrement_keeps (p := p.openPeek) (p' := p') (d := d) hi.openPeek
            (fun (h1 : p.offset.isBitMode = true) => by rw [hb] at h1; cases h1)
          constructor
          · intro b h'
            obtain ⟨a, q, h1, h2⟩ := OpRes.bind_eq_ok.mp h'
            cases h2
            exact hk _ |>.1 _ h1
          · intro e h'
            rcases OpRes.bind_eq_err.mp h' with h1 | ⟨a, q, h1, h2⟩
            · exact hk _ |>.2 _ h1
            · cases h2
        · unfold Parser.seekToOffset
          simp only
          split
          · refine ⟨(fun _ h' => nomatch h'), (fun _ h' => ?_)⟩
            cases h'; exact hi
          · split
            · exact ⟨(fun _ h' => nomatch h'), (fun _ h' => nomatch h')⟩
            · rename_i hg _
              refine ⟨(fun _ h' => ?_), (fun _ h' => nomatch h')⟩
              cases h'
              have hle := le_of_not_gt_bytes (Bool.eq_false_iff.mpr hg)
              rw [hi.max] at hle
              refine ⟨hi.max, ⟨hi.cur, hi.wf⟩, ?_⟩
              have ht : (match ViewStack.getLimit p.stack with
                  | some m => ByteOffset.lt (.bytes (d - p.startOffset)) m && false
                  | none => false) = false := by
                cases ViewStack.getLimit p.stack <;> simp
              show bitPos (.bytes (d - p.startOffset)) ≤ limPos p.buffer.length (.seek (match ViewStack.getLimit p.stack with
                  | some m => ByteOffset.lt (.bytes (d - p.startOffset)) m && false
                  | none => false) p.offset :: p.stack)
              rw [ht]
              exact hle
    exact keep_inv key.1 key.2 h
  | skipRemainder =>
    cases h
    refine ⟨hi.max, hi.wf, ?_⟩
    simp only [Parser.skipRemainder]
    rw [currentLimit_eq hi.max]
    exact Nat.le_refl _
  | skipAlign n =>
    have hb : p.offset.isBitMode = false := hc
    have key : (∀ b, p.skipAlign n = .ok b p' → Inv p') ∧
        (∀ e, p.skipAlign n = .err e p' → Inv p') := by
      unfold Parser.skipAlign
      split
      · exact ⟨(fun _ h' => nomatch h'), (fun _ h' => nomatch h')⟩
      · have hx : ∀ (x : Panicky ByteOffset) (q : Parser) (d : Nat),
            ((OpRes.lift p x).bind fun o p' => OpRes.lift p' (p'.offset.delta o)) = .ok d q → q = p := by
          intro x q d hx
          obtain ⟨a, q', h1, h2⟩ := OpRes.bind_eq_ok.mp hx
          cases x with
          | panic => cases h1
          | ok o =>
            cases h1
            revert h2
            simp only [OpRes.lift]
            cases p.offset.delta a with
            | panic => intro h2; cases h2
            | ok k => intro h2; cases h2; rfl
        have hy : ∀ (x : Panicky ByteOffset) (q : Parser) (e : PErr),
            ((OpRes.lift p x).bind fun o p' => OpRes.lift p' (p'.offset.delta o)) = .err e q → False := by
          intro x q e hx
          rcases OpRes.bind_eq_err.mp hx with h1 | ⟨a, q', h1, h2⟩
          · cases x <;> cases h1
          · revert h2
            cases q'.offset.delta a <;> (intro h2; cases h2)
        constructor
        · intro b h'
          obtain ⟨a, q, h1, h2⟩ := OpRes.bind_eq_ok.mp h'
          have := hx _ _ _ h1
          subst this
          exact (advanceBy_keeps hi (fun h3 => by rw [hb] at h3; cases h3)).1 _ h2
        · intro e h'
          rcases OpRes.bind_eq_err.mp h' with h1 | ⟨a, q, h1, h2⟩
          · exact (hy _ _ _ h1).elim
          · have := hx _ _ _ h1
            subst this
            exact (advanceBy_keeps hi (fun h3 => by rw [hb] at h3; cases h3)).2 _ h2
    exact keep_inv key.1 key.2 h
  | enterBitsMode =>
    refine keep_inv ?_ ?_ h
    · intro u hu
      unfold Parser.enterBitsMode at hu
      split at hu
      · rename_i n hn
        cases hu
        refine ⟨hi.max, hi.wf, ?_⟩
        have := hi.cur
        rw [hn] at this
        simpa [bitPos] using this
      · cases hu
    · intro e he
      unfold Parser.enterBitsMode at he
      split at he <;> cases he
      exact hi
  | escapeBitsMode =>
    have hl : p.currentLimit.isBitMode = false := hc
    refine keep_inv ?_ ?_ h
    · intro u hu
      unfold Parser.escapeBitsMode at hu
      split at hu
      · rename_i s a hn
        simp only [OpRes.ok.injEq] at hu
        obtain ⟨_, hu⟩ := hu
        subst hu
        refine ⟨hi.max, hi.wf, ?_⟩
        have hcur := hi.cur
        rw [hn] at hcur
        have hcl := currentLimit_eq hi.max
        revert hl hcl
        cases p.currentLimit with
        | bits _ _ => intro hl; cases hl
        | bytes m =>
          intro _ hcl
          show bitPos (.bytes (if a % 8 ≠ 0 then s + a / 8 + 1 else s + a / 8)) ≤ limPos p.buffer.length p.stack
          rw [← hcl] at hcur ⊢
          simp only [bitPos] at hcur ⊢
          split <;> omega
      · cases hu
    · intro e he
      unfold Parser.escapeBitsMode at he
      split at he <;> cases he
      exact hi
  | startSlice n =>
    refine keep_inv ?_ ?_ h
    · intro u hu
      unfold Parser.startSlice at hu
      split at hu
      · cases hu
      · rename_i e hinc
        split at hu
        · cases hu
        · rename_i hg
          cases hu
          have hle : bitPos e ≤ limPos p.buffer.length p.stack := by
            rcases incrementBy_eq_ok hinc with ⟨k, h1, h2, _⟩ | ⟨s, a, h1, h2, _⟩
            · subst h2
              have := le_of_not_gt_bytes (Bool.eq_false_iff.mpr hg)
              rw [currentLimit_eq hi.max] at this
              exact this
            · subst h2
              obtain ⟨r, hr, hle⟩ := (hc : Checked p n) (by rw [h1]; rfl)
              unfold Parser.remaining at hr
              rw [h1] at hr
              obtain ⟨h3, h4⟩ := delta_bits_eq_ok hr
              rw [currentLimit_eq hi.max] at h3 h4
              simp only [bitPos]
              omega
          refine ⟨hi.max, ⟨hle, hi.wf⟩, ?_⟩
          show bitPos p.offset ≤ bitPos e
          rcases incrementBy_eq_ok hinc with ⟨k, h1, h2, _⟩ | ⟨s, a, h1, h2, _⟩
          · subst h2; rw [h1]; simp only [bitPos]; omega
          · subst h2; rw [h1]; simp only [bitPos]; omega
    · intro e he
      unfold Parser.startSlice at he
      split at he
      · cases he
      · split at he <;> cases he
        exact hi
  | endSlice => exact keep_inv (closeSliceFrom_inv hi hi.wf).1 (closeSliceFrom_inv hi hi.wf).2 h
  | openPeek => cases h; exact hi.openPeek
  | closePeek => exact keep_inv hi.closePeek.1 hi.closePeek.2 h
  | openPeekNot => cases h; exact hi.openPeekNot
  | closePeekNot => exact keep_inv hi.recover.1 hi.recover.2 h
  | startAlt => cases h; exact hi.startAlt
  | nextAlt b =>
    refine keep_inv ?_ ?_ h
    · intro u hu
      obtain ⟨a, q, h1, h2⟩ := OpRes.bind_eq_ok.mp hu
      have hq := hi.recover.1 _ h1
      split at h2 <;> cases h2
      · exact hq
      · exact hq.startAlt
    · intro e he
      rcases OpRes.bind_eq_err.mp he with h1 | ⟨a, q, h1, h2⟩
      · exact hi.recover.2 _ h1
      · split at h2 <;> cases h2

theorem Inv.run : ∀ {ops : List Op} {p p' : Parser}, Inv p → CarefulRun p ops → Rt.run p ops = .ok p' → Inv p'
  | [], p, p', hi, _, h => by cases h; exact hi
  | op :: ops, p, p', hi, hc, h => by
    obtain ⟨q, h1, h2⟩ := Panicky.bind_eq_ok.mp h
    exact Inv.run (hi.step hc.1 h1) (hc.2 q h1) h2

end Rt
end Doodle
