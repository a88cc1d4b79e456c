import Verif.Lemmas.Brackets

/-!
C32–C35: the runtime parser keeps its cursor inside the window, lookahead and slices restore what was
there, and bit mode delivers the bits least significant first.
-/

namespace Doodle
namespace Rt

/-! ### C32 -/

/-- **C32.**  Whatever a careful caller does — reads, skips, seeks, slices, lookaheads, alternations,
failing calls included — the cursor is never past the end of the buffer nor past the end of a slice that is
open (and was opened since the last random-access seek). -/
theorem C32_window_partial (buf : List UInt8) (start : Nat) (ops : List Op) (p : Parser)
    (hc : CarefulRun (.ofView buf start) ops) (h : run (.ofView buf start) ops = .ok p) : InWindow p :=
  (Inv.run (Inv.new buf start) hc h).inWindow

/-- every offset on the stack counts bytes -/
def lensBytes : Lens → Bool
  | .alts c => !c.isBitMode
  | .peek c => !c.isBitMode
  | .peekNot c => !c.isBitMode
  | .seek _ c => !c.isBitMode
  | .slice c => !c.isBitMode

/-- the parser has never been in bit mode -/
structure BytesOnly (p : Parser) : Prop where
  cur : p.offset.isBitMode = false
  max : p.maxOffset.isBitMode = false
  stack : ∀ l ∈ p.stack, lensBytes l = true

theorem BytesOnly.limit {p : Parser} (h : BytesOnly p) : p.currentLimit.isBitMode = false := by
  have key : ∀ s : ViewStack, (∀ l ∈ s, lensBytes l = true) →
      ((ViewStack.getLimit s).getD p.maxOffset).isBitMode = false := by
    intro s
    induction s with
    | nil => intro _; exact h.max
    | cons l s ih =>
      intro hs
      have hr := ih (fun x hx => hs x (List.mem_cons_of_mem _ hx))
      have hl := hs l List.mem_cons_self
      cases l with
      | slice e =>
        show e.isBitMode = false
        simpa [lensBytes] using hl
      | alts c => exact hr
      | peek c => exact hr
      | peekNot c => exact hr
      | seek t c => cases t with
        | true => exact hr
        | false => exact h.max
  exact key p.stack h.stack

theorem BytesOnly.careful {p : Parser} (h : BytesOnly p) (op : Op) : Careful p op := by
  have hc : ∀ n, Checked p n := fun n hb => by rw [h.cur] at hb; cases hb
  cases op <;> first | exact hc _ | exact h.cur | exact h.limit | trivial

theorem BytesOnly.tryIncrement {p q : Parser} {d : Nat} {o : ByteOffset} (h : BytesOnly p)
    (he : p.tryIncrement d = .ok o q) : BytesOnly q := by
  unfold Parser.tryIncrement at he
  split at he
  · cases he
  · rename_i after hinc
    have ha : after.isBitMode = false := by
      have hc := h.cur
      rcases incrementBy_eq_ok hinc with ⟨n, h1, h2, _⟩ | ⟨s, a, h1, h2, _⟩
      · subst h2; rfl
      · rw [h1] at hc; cases hc
    split at he <;> (split at he <;> cases he) <;> exact ⟨ha, h.max, h.stack⟩

theorem BytesOnly.restore : ∀ {s : ViewStack} {o : ByteOffset} {rest : ViewStack},
    (∀ l ∈ s, lensBytes l = true) → ViewStack.restore s = some (o, rest) →
    o.isBitMode = false ∧ ∀ l ∈ rest, lensBytes l = true
  | [], _, _, _, h => by cases h
  | .slice _ :: s, _, _, hs, h => BytesOnly.restore (s := s) (fun x hx => hs x (List.mem_cons_of_mem _ hx)) h
  | .alts _ :: s, _, _, hs, h => BytesOnly.restore (s := s) (fun x hx => hs x (List.mem_cons_of_mem _ hx)) h
  | .peekNot _ :: s, _, _, hs, h =>
    BytesOnly.restore (s := s) (fun x hx => hs x (List.mem_cons_of_mem _ hx)) h
  | .peek c :: s, _, _, hs, h => by
    cases h
    exact ⟨by simpa [lensBytes] using hs _ List.mem_cons_self, fun x hx => hs x (List.mem_cons_of_mem _ hx)⟩
  | .seek _ c :: s, _, _, hs, h => by
    cases h
    exact ⟨by simpa [lensBytes] using hs _ List.mem_cons_self, fun x hx => hs x (List.mem_cons_of_mem _ hx)⟩

theorem BytesOnly.recover : ∀ {s : ViewStack} {o : ByteOffset} {rest : ViewStack},
    (∀ l ∈ s, lensBytes l = true) → ViewStack.recover s = some (o, rest) →
    o.isBitMode = false ∧ ∀ l ∈ rest, lensBytes l = true
  | [], _, _, _, h => by cases h
  | .slice _ :: s, _, _, hs, h => BytesOnly.recover (s := s) (fun x hx => hs x (List.mem_cons_of_mem _ hx)) h
  | .peek _ :: s, _, _, hs, h => BytesOnly.recover (s := s) (fun x hx => hs x (List.mem_cons_of_mem _ hx)) h
  | .seek _ _ :: s, _, _, hs, h => BytesOnly.recover (s := s) (fun x hx => hs x (List.mem_cons_of_mem _ hx)) h
  | .alts c :: s, _, _, hs, h => by
    cases h
    exact ⟨by simpa [lensBytes] using hs _ List.mem_cons_self, fun x hx => hs x (List.mem_cons_of_mem _ hx)⟩
  | .peekNot c :: s, _, _, hs, h => by
    cases h
    exact ⟨by simpa [lensBytes] using hs _ List.mem_cons_self, fun x hx => hs x (List.mem_cons_of_mem _ hx)⟩

theorem BytesOnly.cleared {p : Parser} (h : BytesOnly p) : BytesOnly { p with stack := [] } :=
  ⟨h.cur, h.max, (fun _ hl => nomatch hl)⟩

theorem BytesOnly.push {p : Parser} (h : BytesOnly p) {l : Lens} (hl : lensBytes l = true) :
    BytesOnly { p with stack := l :: p.stack } :=
  ⟨h.cur, h.max, fun x hx => (List.mem_cons.mp hx).elim (fun e => e ▸ hl) (h.stack x)⟩

theorem BytesOnly.closeSlice {p : Parser} (h : BytesOnly p) {q : Parser} : ∀ {s : ViewStack},
    (∀ l ∈ s, lensBytes l = true) →
    (∀ u, Parser.closeSliceFrom p s = .ok u q → BytesOnly q) ∧
    (∀ e, Parser.closeSliceFrom p s = .err e q → BytesOnly q)
  | [], _ => ⟨(fun _ hu => nomatch hu), (fun _ he => by cases he; exact h.cleared)⟩
  | .slice e :: rest, hs => by
    unfold Parser.closeSliceFrom
    split
    · exact ⟨(fun _ hu => nomatch hu), (fun _ he => by cases he; exact h.cleared)⟩
    · refine ⟨(fun _ hu => ?_), (fun _ he => nomatch he)⟩
      cases hu
      exact ⟨by simpa [lensBytes] using hs _ List.mem_cons_self, h.max,
        fun x hx => hs x (List.mem_cons_of_mem _ hx)⟩
  | .alts _ :: rest, hs => BytesOnly.closeSlice h (s := rest) (fun x hx => hs x (List.mem_cons_of_mem _ hx))
  | .peek _ :: _, _ => ⟨(fun _ hu => nomatch hu), (fun _ he => nomatch he)⟩
  | .peekNot _ :: _, _ => ⟨(fun _ hu => nomatch hu), (fun _ he => nomatch he)⟩
  | .seek _ _ :: _, _ => ⟨(fun _ hu => nomatch hu), (fun _ he => nomatch he)⟩

/-- whatever `exec` keeps of an operation result has the property -/
theorem keep {α : Type} {P : Parser → Prop} {r : OpRes α} {p' : Parser}
    (hok : ∀ a, r = .ok a p' → P p') (herr : ∀ e, r = .err e p' → P p')
    (h : (match r with
      | .ok _ q => Panicky.ok q
      | .err _ q => .ok q
      | .panic => .panic) = .ok p') : P p' := by
  cases r with
  | ok a q => simp only [Panicky.ok.injEq] at h; subst h; exact hok a rfl
  | err e q => simp only [Panicky.ok.injEq] at h; subst h; exact herr e rfl
  | panic => cases h

theorem BytesOnly.step {p q : Parser} {op : Op} (h : BytesOnly p) (hop : op ≠ .enterBitsMode)
    (he : op.exec p = .ok q) : BytesOnly q := by
  have hb : ∀ n : Nat × Nat, p.offset = .bits n.1 n.2 → False := fun n hn => by
    have := h.cur; rw [hn] at this; cases this
  have hrec : (∀ u, p.recover = .ok u q → BytesOnly q) ∧ (∀ e, p.recover = .err e q → BytesOnly q) := by
    unfold Parser.recover
    split
    · rename_i o rest hr
      obtain ⟨h1, h2⟩ := BytesOnly.recover h.stack hr
      exact ⟨(fun _ hu => by cases hu; exact ⟨h1, h.max, h2⟩), (fun _ hu => nomatch hu)⟩
    · exact ⟨(fun _ hu => nomatch hu), (fun _ hu => by cases hu; exact h.cleared)⟩
  have hadv : ∀ (p : Parser), BytesOnly p → ∀ d, (∀ u, p.advanceBy d = .ok u q → BytesOnly q) ∧
      (∀ e, p.advanceBy d = .err e q → BytesOnly q) := by
    intro p h d
    constructor
    · intro u hu
      obtain ⟨a, q', h1, h2⟩ := OpRes.bind_eq_ok.mp hu
      cases h2
      exact h.tryIncrement h1
    · intro e hu
      rw [advanceBy_err hu]; exact h
  cases op with
  | readByte =>
    refine keep ?_ ?_ he
    · intro b hb
      obtain ⟨a, q', h1, h2⟩ := OpRes.bind_eq_ok.mp hb
      have := h.tryIncrement h1
      split at h2
      · cases h2
      · split at h2 <;> (cases h2; exact this)
    · intro e hb
      rcases OpRes.bind_eq_err.mp hb with h1 | ⟨a, q', h1, h2⟩
      · rw [tryIncrement_err h1]; exact h
      · have := h.tryIncrement h1
        split at h2
        · cases h2; exact this
        · split at h2 <;> cases h2
  | advanceBy n => exact keep (hadv p h n).1 (hadv p h n).2 he
  | advanceOrSeek d =>
    refine keep ?_ ?_ he
    · intro b hu
      unfold Parser.advanceOrSeek at hu
      split at hu
      · cases hu
      · split at hu
        · cases hu
        · obtain ⟨o, q', h1, h2⟩ := OpRes.bind_eq_ok.mp hu
          cases h2
          exact BytesOnly.tryIncrement (p := p.openPeek)
            (h.push (l := .peek p.offset) (by simp [lensBytes, h.cur])) h1
        · obtain ⟨o, q', h1, h2⟩ := OpRes.bind_eq_ok.mp hu
          cases h2
          unfold Parser.seekToOffset at h1
          simp only at h1
          split at h1
          · cases h1
          · split at h1 <;> cases h1
            exact ⟨rfl, h.max, fun x hx => (List.mem_cons.mp hx).elim
              (fun e => by rw [e]; simp [lensBytes, h.cur]) (h.stack x)⟩
    · intro e hu
      rcases advanceOrSeek_err hu with h1 | h1
      · rw [h1]; exact h
      · rw [h1]; exact h.push (l := .peek p.offset) (by simp [lensBytes, h.cur])
  | skipRemainder => cases he; exact ⟨h.limit, h.max, h.stack⟩
  | skipAlign n =>
    have key : (∀ u, p.skipAlign n = .ok u q → BytesOnly q) ∧
        (∀ e, p.skipAlign n = .err e q → BytesOnly q) := by
      unfold Parser.skipAlign
      split
      · exact ⟨(fun _ h => nomatch h), (fun _ h => nomatch h)⟩
      · constructor
        · intro u hu
          obtain ⟨d, q1, h1, h2⟩ := OpRes.bind_eq_ok.mp hu
          obtain ⟨o, q2, h3, h4⟩ := OpRes.bind_eq_ok.mp h1
          have e1 := lift_ok h3
          have e2 := lift_ok h4
          subst e2; subst e1
          exact (hadv _ h d).1 u h2
        · intro e hu
          rcases OpRes.bind_eq_err.mp hu with h1 | ⟨d, q1, h1, h2⟩
          · rcases OpRes.bind_eq_err.mp h1 with h3 | ⟨_, _, _, h4⟩
            · exact (lift_err h3).elim
            · exact (lift_err h4).elim
          · obtain ⟨o, q2, h3, h4⟩ := OpRes.bind_eq_ok.mp h1
            have e1 := lift_ok h3
            have e2 := lift_ok h4
            subst e2; subst e1
            exact (hadv _ h d).2 e h2
    exact keep key.1 key.2 he
  | enterBitsMode => exact absurd rfl hop
  | escapeBitsMode =>
    refine keep ?_ ?_ he
    · intro u hu
      unfold Parser.escapeBitsMode at hu
      split at hu
      · rename_i s a hn
        exact (hb (s, a) hn).elim
      · cases hu
    · intro e hu
      unfold Parser.escapeBitsMode at hu
      split at hu
      · cases hu
      · cases hu; exact h
  | startSlice n =>
    refine keep ?_ ?_ he
    · intro u hu
      obtain ⟨e, h1, _, h3⟩ := startSlice_frame hu
      subst h3
      refine h.push ?_
      have hc := h.cur
      rcases incrementBy_eq_ok h1 with ⟨k, h4, h5, _⟩ | ⟨s, a, h4, h5, _⟩
      · subst h5; rfl
      · rw [h4] at hc; cases hc
    · intro e hu
      rw [startSlice_err hu]; exact h
  | endSlice => exact keep (BytesOnly.closeSlice h h.stack).1 (BytesOnly.closeSlice h h.stack).2 he
  | openPeek => cases he; exact h.push (l := .peek p.offset) (by simp [lensBytes, h.cur])
  | closePeek =>
    refine keep ?_ ?_ he
    · intro u hu
      unfold Parser.closePeek at hu
      split at hu
      · rename_i o rest hr
        cases hu
        obtain ⟨h1, h2⟩ := BytesOnly.restore h.stack hr
        exact ⟨h1, h.max, h2⟩
      · cases hu
    · intro e hu
      unfold Parser.closePeek at hu
      split at hu <;> cases hu
      exact h.cleared
  | openPeekNot => cases he; exact h.push (l := .peekNot p.offset) (by simp [lensBytes, h.cur])
  | closePeekNot => exact keep hrec.1 hrec.2 he
  | startAlt => cases he; exact h.push (l := .alts p.offset) (by simp [lensBytes, h.cur])
  | nextAlt b =>
    have hst : ∀ p' : Parser, BytesOnly p' → BytesOnly p'.startAlt := fun p' h' =>
      h'.push (l := .alts p'.offset) (by simp [lensBytes, h'.cur])
    have hrec' : ∀ p', (∀ u, p.recover = .ok u p' → BytesOnly p') ∧
        (∀ e, p.recover = .err e p' → BytesOnly p') := by
      intro p'
      unfold Parser.recover
      split
      · rename_i o rest hr
        obtain ⟨h1, h2⟩ := BytesOnly.recover h.stack hr
        exact ⟨(fun _ hu => by cases hu; exact ⟨h1, h.max, h2⟩), (fun _ hu => nomatch hu)⟩
      · exact ⟨(fun _ hu => nomatch hu), (fun _ hu => by cases hu; exact h.cleared)⟩
    refine keep ?_ ?_ he
    · intro u hu
      obtain ⟨a, q', h1, h2⟩ := OpRes.bind_eq_ok.mp hu
      have hq := (hrec' q').1 _ h1
      split at h2 <;> cases h2
      · exact hq
      · exact hst _ hq
    · intro e hu
      rcases OpRes.bind_eq_err.mp hu with h1 | ⟨a, q', h1, h2⟩
      · exact (hrec' q).2 _ h1
      · split at h2 <;> cases h2

theorem BytesOnly.run : ∀ {ops : List Op} {p q : Parser}, BytesOnly p → .enterBitsMode ∉ ops →
    Rt.run p ops = .ok q → BytesOnly q ∧ CarefulRun p ops
  | [], p, q, h, _, he => by cases he; exact ⟨h, trivial⟩
  | op :: ops, p, q, h, hn, he => by
    obtain ⟨p1, h1, h2⟩ := Panicky.bind_eq_ok.mp he
    have hop : op ≠ .enterBitsMode := fun e => hn (e ▸ List.mem_cons_self)
    have hn' : .enterBitsMode ∉ ops := fun e => hn (List.mem_cons_of_mem _ e)
    refine ⟨(BytesOnly.run (h.step hop h1) hn' h2).1, h.careful op, ?_⟩
    intro p' h3
    rw [h1] at h3
    cases h3
    exact (BytesOnly.run (h.step hop h1) hn' h2).2

/-- what every byte-mode history reaches -/
theorem bytes_reach {buf : List UInt8} {start : Nat} {ops : List Op} {p : Parser}
    (hn : .enterBitsMode ∉ ops) (h : run (.ofView buf start) ops = .ok p) : Inv p ∧ BytesOnly p := by
  have hb : BytesOnly (Parser.ofView buf start) := ⟨rfl, rfl, (fun _ hl => nomatch hl)⟩
  obtain ⟨h1, h2⟩ := hb.run hn h
  exact ⟨Inv.run (Inv.new buf start) h2 h, h1⟩

/-- **C32.**  Without bit mode nothing is asked of the caller: after every history of calls the cursor is
at a whole byte inside the buffer and inside every open slice. -/
theorem C32_window (buf : List UInt8) (start : Nat) (ops : List Op) (p : Parser)
    (hn : .enterBitsMode ∉ ops) (h : run (.ofView buf start) ops = .ok p) :
    (∃ n, p.offset = .bytes n) ∧ InWindow p := by
  obtain ⟨h1, h2⟩ := bytes_reach hn h
  refine ⟨?_, h1.inWindow⟩
  have := h2.cur
  cases ho : p.offset with
  | bytes n => exact ⟨n, rfl⟩
  | bits s a => rw [ho] at this; cases this

theorem run_buffer : ∀ {ops : List Op} {p q : Parser}, run p ops = .ok q → Frame p q
  | [], p, q, h => by cases h; exact .refl _
  | op :: ops, p, q, h => by
    obtain ⟨p1, h1, h2⟩ := Panicky.bind_eq_ok.mp h
    refine Frame.trans ?_ (run_buffer h2)
    have hplain : op.plain = true ∨ op.opens = true → Frame p p1 := fun ho => (last_call ho h1).1
    have hrecover : ∀ q, (∀ u, p.recover = .ok u q → Frame p q) ∧ (∀ e, p.recover = .err e q → Frame p q) := by
      intro q
      unfold Parser.recover
      split
      · exact ⟨(fun _ hu => by cases hu; exact ⟨rfl, rfl, rfl⟩), (fun _ hu => nomatch hu)⟩
      · exact ⟨(fun _ hu => nomatch hu), (fun _ hu => by cases hu; exact ⟨rfl, rfl, rfl⟩)⟩
    cases op with
    | endSlice =>
      have key : ∀ s : ViewStack, (∀ u, Parser.closeSliceFrom p s = .ok u p1 → Frame p p1) ∧
          (∀ e, Parser.closeSliceFrom p s = .err e p1 → Frame p p1) := by
        intro s
        induction s with
        | nil => exact ⟨(fun _ hu => nomatch hu), (fun _ hu => by cases hu; exact ⟨rfl, rfl, rfl⟩)⟩
        | cons l s ih =>
          cases l with
          | alts c => exact ih
          | slice e =>
            unfold Parser.closeSliceFrom
            split
            · exact ⟨(fun _ hu => nomatch hu), (fun _ hu => by cases hu; exact ⟨rfl, rfl, rfl⟩)⟩
            · exact ⟨(fun _ hu => by cases hu; exact ⟨rfl, rfl, rfl⟩), (fun _ hu => nomatch hu)⟩
          | peek c => exact ⟨(fun _ hu => nomatch hu), (fun _ hu => nomatch hu)⟩
          | peekNot c => exact ⟨(fun _ hu => nomatch hu), (fun _ hu => nomatch hu)⟩
          | seek t c => exact ⟨(fun _ hu => nomatch hu), (fun _ hu => nomatch hu)⟩
      exact keep (key p.stack).1 (key p.stack).2 h1
    | openPeekNot => cases h1; exact ⟨rfl, rfl, rfl⟩
    | startAlt => cases h1; exact ⟨rfl, rfl, rfl⟩
    | closePeek =>
      refine keep ?_ ?_ h1
      · intro u hu
        unfold Parser.closePeek at hu
        split at hu <;> cases hu
        exact ⟨rfl, rfl, rfl⟩
      · intro u hu
        unfold Parser.closePeek at hu
        split at hu <;> cases hu
        exact ⟨rfl, rfl, rfl⟩
    | closePeekNot => exact keep (hrecover p1).1 (hrecover p1).2 h1
    | nextAlt b =>
      refine keep ?_ ?_ h1
      · intro u hu
        obtain ⟨a, q', h3, h4⟩ := OpRes.bind_eq_ok.mp hu
        have hf := (hrecover q').1 _ h3
        split at h4 <;> cases h4
        · exact hf
        · exact ⟨hf.1, hf.2.1, hf.2.2⟩
      · intro e hu
        rcases OpRes.bind_eq_err.mp hu with h3 | ⟨a, q', h3, h4⟩
        · exact (hrecover p1).2 _ h3
        · split at h4 <;> cases h4
    | readByte => exact hplain (.inl rfl)
    | advanceBy n => exact hplain (.inl rfl)
    | skipRemainder => exact hplain (.inl rfl)
    | skipAlign n => exact hplain (.inl rfl)
    | enterBitsMode => exact hplain (.inl rfl)
    | escapeBitsMode => exact hplain (.inl rfl)
    | advanceOrSeek d => exact hplain (.inr rfl)
    | startSlice n => exact hplain (.inr rfl)
    | openPeek => exact hplain (.inr rfl)

theorem limit_bytes {p : Parser} (hi : Inv p) (hb : BytesOnly p) :
    ∃ m, p.currentLimit = .bytes m ∧ limPos p.buffer.length p.stack = 8 * m ∧ m ≤ p.buffer.length := by
  have hl := hb.limit
  have hp := currentLimit_eq hi.max
  have hle := limPos_le hi.wf
  revert hl hp
  cases p.currentLimit with
  | bits s a => intro hl; cases hl
  | bytes m => intro _ hp; simp only [bitPos] at hp; exact ⟨m, rfl, hp.symm, by omega⟩

theorem addUsize_ok {a b : Nat} (h : a + b < usizeCard) : addUsize a b = .ok (a + b) := if_pos h

/-- one read in byte mode -/
theorem readByte_bytes {p : Parser} {n m : Nat} (ho : p.offset = .bytes n) (hl : p.currentLimit = .bytes m)
    (hm : m ≤ p.buffer.length) (hlen : p.buffer.length < usizeCard) :
    (∀ h : n < m, p.readByte = .ok (p.buffer[n]'(by omega)) { p with offset := .bytes (n + 1) }) ∧
    (m ≤ n → n + 1 < usizeCard → ∃ e, p.readByte = .err e p) := by
  constructor
  · intro h
    have hinc : p.offset.incrementBy 1 = .ok (.bytes (n + 1)) := by
      rw [ho]
      show (addUsize n 1 >>= fun m => Panicky.ok (ByteOffset.bytes m)) = _
      rw [addUsize_ok (by omega)]
      rfl
    rcases tryIncrement_cases hinc with ⟨_, he⟩ | ⟨hg, _⟩
    · unfold Parser.readByte
      rw [he]
      simp only [OpRes.bind, ho, ByteOffset.asBytes]
      have : p.buffer[n]? = some (p.buffer[n]'(by omega)) := List.getElem?_eq_getElem (by omega)
      rw [this]
    · rw [hl, gt_bytes] at hg
      have := of_decide_eq_true hg
      omega
  · intro h hu
    have hinc : p.offset.incrementBy 1 = .ok (.bytes (n + 1)) := by
      rw [ho]
      show (addUsize n 1 >>= fun m => Panicky.ok (ByteOffset.bytes m)) = _
      rw [addUsize_ok hu]
      rfl
    rcases tryIncrement_cases hinc with ⟨hg, _⟩ | ⟨_, e, he⟩
    · rw [hl, gt_bytes] at hg
      have := of_decide_eq_false hg
      omega
    · exact ⟨e, by unfold Parser.readByte; rw [he]; rfl⟩

/-- **C32.**  In byte mode a read delivers the byte at the cursor and moves by one when that byte is inside
the buffer and inside every open slice; otherwise it fails and changes nothing.  (`ops` is any history of
calls.) -/
theorem C32_read (buf : List UInt8) (start : Nat) (ops : List Op) (p : Parser) (n : Nat)
    (hlen : buf.length + 1 < usizeCard) (hn : .enterBitsMode ∉ ops)
    (h : run (.ofView buf start) ops = .ok p) (ho : p.offset = .bytes n) :
    (Readable p (8 * n) → ∃ hlt : n < buf.length,
      p.readByte = .ok buf[n] { p with offset := .bytes (n + 1) }) ∧
    (¬ Readable p (8 * n) → ∃ e, p.readByte = .err e p) := by
  obtain ⟨hi, hb⟩ := bytes_reach hn h
  obtain ⟨m, hl, hlp, hm⟩ := limit_bytes hi hb
  have hbuf : p.buffer = buf := (run_buffer h).1
  have hcur := hi.cur
  rw [ho, hlp] at hcur
  simp only [bitPos] at hcur
  rw [limPos_readable hi, hlp]
  subst hbuf
  obtain ⟨h1, h2⟩ := readByte_bytes ho hl hm (by omega)
  constructor
  · intro hr
    exact ⟨by omega, h1 (by omega)⟩
  · intro hr
    exact h2 (by omega) (by omega)

theorem Reads.length_le : ∀ {bs : List UInt8} {p q : Parser} {n m : Nat}, Reads p bs q → p.offset = .bytes n →
    p.currentLimit = .bytes m → m ≤ p.buffer.length → p.buffer.length + 1 < usizeCard → n ≤ m →
    bs.length ≤ m - n ∧ bs = (p.buffer.drop n).take bs.length ∧ q = { p with offset := .bytes (n + bs.length) }
  | [], p, q, n, m, h, ho, _, _, _, _ => by
    cases h
    refine ⟨Nat.zero_le _, by simp, ?_⟩
    cases p
    simp only at ho
    subst ho
    rfl
  | b :: bs, p, q, n, m, h, ho, hl, hm, hlen, hle => by
    cases h with
    | cons h1 h2 =>
      obtain ⟨g1, g2⟩ := readByte_bytes ho hl hm (by omega)
      by_cases hlt : n < m
      · rw [g1 hlt] at h1
        simp only [OpRes.ok.injEq] at h1
        obtain ⟨hb, hp⟩ := h1
        subst hp
        obtain ⟨i1, i2, i3⟩ := Reads.length_le (n := n + 1) (m := m) h2 rfl hl hm hlen hlt
        refine ⟨by simp only [List.length_cons]; omega, ?_, ?_⟩
        · rw [List.drop_eq_getElem_cons (by omega)]
          simp only [List.length_cons, List.take_succ_cons]
          rw [← hb, ← i2]
        · rw [i3]
          simp only [List.length_cons]
          congr 2
          omega
      · obtain ⟨e, he⟩ := g2 (by omega) (by omega)
        rw [he] at h1
        cases h1

theorem reads_exist : ∀ (k : Nat) {p : Parser} {n m : Nat}, p.offset = .bytes n →
    p.currentLimit = .bytes m → m ≤ p.buffer.length → p.buffer.length < usizeCard → k ≤ m - n →
    ∃ q bs, Reads p bs q ∧ bs.length = k
  | 0, p, _, _, _, _, _, _, _ => ⟨p, [], .nil p, rfl⟩
  | k + 1, p, n, m, ho, hl, hm, hlen, hk => by
    have h1 := (readByte_bytes ho hl hm hlen).1 (by omega)
    obtain ⟨q, bs, h2, h3⟩ := reads_exist k (p := { p with offset := .bytes (n + 1) }) (n := n + 1) (m := m)
      rfl hl hm hlen (by omega)
    exact ⟨q, _ :: bs, .cons h1 h2, by simp [h3]⟩

/-- **C32.**  In byte mode `remaining()` is exactly the number of further reads that succeed, and those reads
deliver the bytes of the buffer from the cursor on. -/
theorem C32_remaining (buf : List UInt8) (start : Nat) (ops : List Op) (p : Parser) (n : Nat)
    (hlen : buf.length + 1 < usizeCard) (hn : .enterBitsMode ∉ ops)
    (h : run (.ofView buf start) ops = .ok p) (ho : p.offset = .bytes n) :
    ∃ r, p.remaining = .ok r ∧ (∀ k, (∃ bs q, Reads p bs q ∧ bs.length = k) ↔ k ≤ r) ∧
      ∀ bs q, Reads p bs q → bs = (buf.drop n).take bs.length := by
  obtain ⟨hi, hb⟩ := bytes_reach hn h
  obtain ⟨m, hl, hlp, hm⟩ := limit_bytes hi hb
  have hbuf : p.buffer = buf := (run_buffer h).1
  have hcur := hi.cur
  rw [ho, hlp] at hcur
  simp only [bitPos] at hcur
  subst hbuf
  have hle : n ≤ m := by omega
  refine ⟨m - n, ?_, fun k => ⟨?_, ?_⟩, ?_⟩
  · unfold Parser.remaining
    rw [ho, hl]
    simp only [ByteOffset.delta, ByteOffset.isBitMode, Bool.false_eq_true, if_false, ByteOffset.asBytes,
      subUsize]
    exact if_pos hle
  · intro ⟨bs, q, h1, h2⟩
    have := (h1.length_le ho hl hm hlen hle).1
    omega
  · intro hk
    obtain ⟨q, bs, h1, h2⟩ := reads_exist k ho hl hm (by omega) hk
    exact ⟨bs, q, h1, h2⟩
  · intro bs q h1
    exact (h1.length_le ho hl hm hlen hle).2.1

/-- The history of the examples below: a slice of three bytes, one read, a peek of one byte, an inner slice
and a failed read in it. -/
def demoOps : List Op :=
  [.startSlice 3, .readByte, .openPeek, .readByte, .closePeek, .startSlice 1, .readByte, .readByte]

example : (.enterBitsMode ∉ demoOps) ∧
    run (.new [1, 2, 3, 4]) demoOps = .ok
      { buffer := [1, 2, 3, 4], startOffset := 0, offset := .bytes 2,
        stack := [.slice (.bytes 2), .slice (.bytes 3)], maxOffset := .bytes 4 } := by
  decide +kernel

/-- a careful history in bit mode -/
example : CarefulRun (.new [1, 2]) [.startSlice 1, .enterBitsMode, .readByte] :=
  ⟨(fun h => by cases h), fun _ h1 => by
    cases h1
    refine ⟨trivial, fun _ h2 => ?_⟩
    cases h2
    refine ⟨(fun _ => ⟨8, by decide +kernel, by decide⟩), fun _ h3 => trivial⟩⟩

/-- **C32 is false of bit mode.**  The limit check compares a position in bits with a limit in bytes and lets
up to seven bits past it: with one slice of one byte open and all its eight bits read, `remaining()` is 0, but
the next read succeeds, delivers a bit of the byte after the slice and leaves the cursor outside the slice. -/
theorem C32_bits_refuted : ∃ (buf : List UInt8) (ops : List Op) (p q : Parser) (b : UInt8),
    run (.new buf) ops = .ok p ∧ p.remaining = .ok 0 ∧ p.readByte = .ok b q ∧ ¬ InWindow q := by
  refine ⟨[0, 1], [.startSlice 1, .enterBitsMode, .advanceBy 8],
    { buffer := [0, 1], startOffset := 0, offset := .bits 0 8, stack := [.slice (.bytes 1)],
      maxOffset := .bytes 2 },
    { buffer := [0, 1], startOffset := 0, offset := .bits 0 9, stack := [.slice (.bytes 1)],
      maxOffset := .bytes 2 }, 1, by decide +kernel, by decide +kernel, by decide +kernel, ?_⟩
  intro h
  have := h.2 (.bytes 1) List.mem_cons_self
  simp [bitPos] at this

/-- **C32 is false of bit mode.**  Leaving bit mode after such an overrun puts the cursor past the end of the
buffer, where `remaining()` and `view()` panic. -/
theorem C32_escape_refuted : ∃ (buf : List UInt8) (ops : List Op) (p : Parser),
    run (.new buf) ops = .ok p ∧ ¬ InWindow p ∧ p.remaining = .panic ∧ p.view = .panic := by
  refine ⟨[0], [.enterBitsMode, .advanceBy 9, .escapeBitsMode],
    { buffer := [0], startOffset := 0, offset := .bytes 2, stack := [], maxOffset := .bytes 1 },
    by decide +kernel, ?_, by decide +kernel, by decide +kernel⟩
  intro h
  have := h.1
  simp [bitPos] at this

/-! ### C33 -/

/-- **C33.**  Closing a peek after any well-bracketed history of successful calls gives back exactly the
parser at which it was opened: same cursor (and mode), same open contexts. -/
theorem C33_peek (p m : Parser) (body : List Op) (hb : Bracketed body) (h : RunOk p.openPeek body m) :
    m.closePeek = .ok () p := by
  obtain ⟨hf, al, ha, hs, _⟩ := hb.stack h
  have hc : m.closePeek = .ok () { m with offset := p.offset, stack := p.stack } := by
    unfold Parser.closePeek
    rw [hs]
    show (match ViewStack.restore (al ++ .peek p.offset :: p.stack) with
      | some (o, rest) => OpRes.ok () { m with offset := o, stack := rest }
      | none => .err .noRestore { m with stack := [] }) = _
    rw [restore_skip rfl ha]
  rw [hc]
  have : ({ m with offset := p.offset, stack := p.stack } : Parser) = p := Frame.eq (p := p) hf rfl rfl
  rw [this]

/-- **C32.**  A jump forwards leaves the limit as it is; after a jump backwards only the end of the buffer limits what can be
read, whatever slices are open. -/
theorem C32_jump_limit (p p1 : Parser) (dest : Nat) (forwards : Bool) (h : p.advanceOrSeek dest = .ok forwards p1) :
    p1.currentLimit = if forwards then p.currentLimit else p.maxOffset := by
  unfold Parser.advanceOrSeek at h
  split at h
  · cases h
  · split at h
    · cases h
    · cases h1 : p.openPeek.tryIncrement _ with
      | ok u q =>
        rw [h1] at h
        cases h
        obtain ⟨hf, hs, _⟩ := tryIncrement_frame h1
        unfold Parser.currentLimit
        rw [hs, hf.2.2]
        rfl
      | err e q => rw [h1] at h; cases h
      | panic => rw [h1] at h; cases h
    · unfold Parser.seekToOffset at h
      dsimp only at h
      split at h
      · cases h
      · split at h
        · cases h
        · cases h
          unfold Parser.currentLimit
          cases hl : ViewStack.getLimit p.stack with
          | none => simp [ViewStack.getLimit]
          | some e => simp [ViewStack.getLimit]

/-- **C32.**  A transparent jump to a place before the limit keeps the limit, another jump leaves only the end of the buffer. -/
theorem C32_seek_limit (p p1 : Parser) (dest e : Nat) (t : Bool) (o : ByteOffset) (h : p.seekToOffset dest t = .ok o p1)
    (hl : p.stack.getLimit = some (.bytes e)) :
    p1.currentLimit = if t = true ∧ dest < e then .bytes e else p.maxOffset := by
  unfold Parser.seekToOffset at h
  dsimp only at h
  split at h
  · cases h
  · split at h
    · cases h
    · cases h
      have hc : (ByteOffset.bytes dest).lt (.bytes e) = decide (dest < e) := by
        unfold ByteOffset.lt ByteOffset.partialCmp
        show ((match compare dest e with | .eq => some Ordering.eq | o => some o) == some .lt) = _
        cases hd : compare dest e with
        | lt => simp [Nat.compare_eq_lt.1 hd]
        | eq => simp [Nat.compare_eq_eq.1 hd]
        | gt => have := Nat.compare_eq_gt.1 hd; simp; omega
      unfold Parser.currentLimit
      rw [hl]
      simp only [hc]
      cases t with
      | false => simp [ViewStack.getLimit]
      | true =>
        by_cases hd : dest < e
        · simp [ViewStack.getLimit, hd, hl]
        · simp [ViewStack.getLimit, hd]

/-- back from the place 2 in a slice to the start -/
example : ∃ p1, (⟨[1, 2, 3, 4], 0, .bytes 2, [.slice (.bytes 3)], .bytes 4⟩ : Parser).advanceOrSeek 0 = .ok false p1 := ⟨_, rfl⟩

/-- **C33.**  The same for a jump to another position (`advance_or_seek`), forwards or backwards. -/
theorem C33_seek (p p1 m : Parser) (dest : Nat) (b : Bool) (body : List Op) (hb : Bracketed body)
    (h0 : p.advanceOrSeek dest = .ok b p1) (h : RunOk p1 body m) : m.closePeek = .ok () p := by
  obtain ⟨hf0, l, hs0, hl, _⟩ := advanceOrSeek_frame h0
  obtain ⟨hf, al, ha, hs, _⟩ := hb.stack h
  have hc : m.closePeek = .ok () { m with offset := p.offset, stack := p.stack } := by
    unfold Parser.closePeek
    rw [hs, hs0, restore_skip hl ha]
  rw [hc]
  have : ({ m with offset := p.offset, stack := p.stack } : Parser) = p :=
    Frame.eq (p := p) (hf0.trans hf) rfl rfl
  rw [this]

example : Bracketed [.readByte, .startSlice 2, .startAlt, .readByte, .endSlice, .openPeek, .closePeek] :=
  .plain rfl (.slice (body := [.startAlt, .readByte]) (.branch (.plain rfl .nil))
    (.peek (body := []) .nil .nil))

example : ∃ m, RunOk (Parser.openPeek (.new [1, 2, 3]))
    [.readByte, .startSlice 2, .startAlt, .readByte, .endSlice, .openPeek, .closePeek] m :=
  ⟨_, .readByte (by rfl) (.startSlice (by rfl) (.startAlt (.readByte (by rfl) (.endSlice (by rfl)
    (.openPeek (.closePeek (by rfl) (.nil _)))))))⟩

theorem recover_body {p m q : Parser} {l : Lens} {junk : ViewStack} (hl : l.recover = some p.offset)
    (hf : Frame p m) (hj : ∀ x ∈ junk, x.recover = none) (hs : m.stack = junk ++ l :: p.stack)
    (hq : q = p) : m.recover = .ok () q := by
  subst hq
  unfold Parser.recover
  rw [hs, recover_skip hl hj]
  simp only
  have : ({ m with offset := q.offset, stack := q.stack } : Parser) = q := Frame.eq (p := q) hf rfl rfl
  rw [this]

theorem brokenOff_last {p m m' : Parser} {ops : List Op} (last : Option Op)
    (ho : ∀ op, last = some op → op.plain = true ∨ op.opens = true)
    (hb : BrokenOff ops) (h : RunOk p ops m) (hlast : run m last.toList = .ok m') :
    Frame p m' ∧ ∃ junk : ViewStack, (∀ l ∈ junk, l.recover = none) ∧ m'.stack = junk ++ p.stack := by
  obtain ⟨hf, junk, hj, hs⟩ := hb.stack h
  cases last with
  | none => cases hlast; exact ⟨hf, junk, hj, hs⟩
  | some op =>
    obtain ⟨m1, h1, h2⟩ := Panicky.bind_eq_ok.mp hlast
    cases h2
    obtain ⟨hf2, junk2, hj2, hs2⟩ := last_call (ho op rfl) h1
    refine ⟨hf.trans hf2, junk2 ++ junk, ?_, by rw [hs2, hs, List.append_assoc]⟩
    exact fun l hl => (List.mem_append.mp hl).elim (hj2 l) (hj l)

/-- **C33.**  After a branch of an alternation has broken off anywhere — between two calls or with a failing
call `last` — trying the next alternative returns to exactly the parser at which the alternation began (with
the alternation still open unless the next branch is the last).  What is missing: branches in which an
alternation or a negative lookahead has been opened and not enclosed (see `C33_next_alt_refuted`), and a
branch that breaks off while closing an overrun slice in bit mode. -/
theorem C33_next_alt_partial (p m m' : Parser) (ops : List Op) (last : Option Op) (isLast : Bool)
    (ho : ∀ op, last = some op → op.plain = true ∨ op.opens = true)
    (hb : BrokenOff ops) (h : RunOk p.startAlt ops m) (hlast : run m last.toList = .ok m') :
    m'.nextAlt isLast = .ok () (if isLast then p else p.startAlt) := by
  obtain ⟨hf, junk, hj, hs⟩ := brokenOff_last last ho hb h hlast
  have hr : m'.recover = .ok () p :=
    recover_body (l := .alts p.offset) rfl ⟨hf.1, hf.2.1, hf.2.2⟩ hj hs rfl
  unfold Parser.nextAlt
  rw [hr]
  cases isLast <;> rfl

/-- **C33.**  The same for a negative lookahead whose body has failed. -/
theorem C33_peek_not_partial (p m m' : Parser) (ops : List Op) (last : Option Op)
    (ho : ∀ op, last = some op → op.plain = true ∨ op.opens = true)
    (hb : BrokenOff ops) (h : RunOk p.openPeekNot ops m) (hlast : run m last.toList = .ok m') :
    m'.recover = .ok () p := by
  obtain ⟨hf, junk, hj, hs⟩ := brokenOff_last last ho hb h hlast
  exact recover_body (l := .peekNot p.offset) rfl ⟨hf.1, hf.2.1, hf.2.2⟩ hj hs rfl

/-- a branch that reads a byte, opens a slice and fails reading past it -/
example : ∃ m m', BrokenOff [.readByte, .startSlice 0] ∧
    RunOk (Parser.startAlt (.new [1, 2, 3])) [.readByte, .startSlice 0] m ∧
    run m (some Op.readByte).toList = .ok m' :=
  ⟨_, _, .plain rfl (.opened rfl .nil), .readByte (by rfl) (.startSlice (by rfl) (.nil _)), by rfl⟩

/-- **C33 is false of nested alternations.**  A branch reads a byte, an alternation inside it succeeds (its
lens stays on the stack) and then the branch fails: the next alternative starts where the *inner* alternation
began, one byte too far.  This is the sequence of calls generated for
`UnionNondet [ (byte, UnionNondet [byte, …], fail), … ]`. -/
theorem C33_next_alt_refuted : ∃ (p m q : Parser) (ops : List Op), Bracketed ops ∧
    RunOk p.startAlt ops m ∧ m.nextAlt true = .ok () q ∧ q.offset ≠ p.offset ∧ q.stack ≠ p.stack := by
  refine ⟨.new [1, 2], _, _, [.readByte, .startAlt, .readByte], .plain rfl (.branch (.plain rfl .nil)),
    .readByte (by rfl) (.startAlt (.readByte (by rfl) (.nil _))), by rfl, by decide, by decide⟩

/-- **C33 is false of negative lookaheads inside alternations.**  A branch reads a byte and then a negative
lookahead fails because its body succeeds (generated code returns the error without closing it): the next
alternative starts where the lookahead began. -/
theorem C33_peek_not_refuted : ∃ (p m q : Parser),
    RunOk p.startAlt [.readByte, .openPeekNot, .readByte] m ∧ m.nextAlt true = .ok () q ∧
    q.offset ≠ p.offset ∧ q.stack ≠ p.stack := by
  refine ⟨.new [1, 2], _, _,
    .readByte (by rfl) (.openPeekNot (.readByte (by rfl) (.nil _))), by rfl, by decide, by decide⟩

/-! ### C34 -/

theorem gt_false_of_le {x y : ByteOffset} (h : bitPos x ≤ bitPos y) : x.gt y = false := by
  cases x <;> cases y <;> simp only [bitPos] at h
  · rw [gt_bytes]; exact decide_eq_false (by omega)
  · rw [gt_bytes_bits]; exact decide_eq_false (by omega)
  · rw [gt_bits_bytes]; exact decide_eq_false (by omega)
  · rw [gt_bits]; exact decide_eq_false (by omega)

/-- **C34.**  In byte mode a slice of `size` bytes can be opened exactly when it ends inside the buffer and
inside every open slice; the cursor does not move, and a refused slice changes nothing. -/
theorem C34_open (buf : List UInt8) (start : Nat) (ops : List Op) (p : Parser) (n size : Nat)
    (hsz : n + size < usizeCard) (hn : .enterBitsMode ∉ ops)
    (h : run (.ofView buf start) ops = .ok p) (ho : p.offset = .bytes n) :
    (n + size ≤ buf.length ∧ (∀ e ∈ openSlices p.stack, 8 * (n + size) ≤ bitPos e) →
      p.startSlice size = .ok () { p with stack := .slice (.bytes (n + size)) :: p.stack }) ∧
    (¬ (n + size ≤ buf.length ∧ ∀ e ∈ openSlices p.stack, 8 * (n + size) ≤ bitPos e) →
      p.startSlice size = .err .unstackableSlices p) := by
  obtain ⟨hi, hb⟩ := bytes_reach hn h
  obtain ⟨m, hl, hlp, hm⟩ := limit_bytes hi hb
  have hbuf : p.buffer = buf := (run_buffer h).1
  subst hbuf
  have hinc : p.offset.incrementBy size = .ok (.bytes (n + size)) := by
    rw [ho]
    show (addUsize n size >>= fun m => Panicky.ok (ByteOffset.bytes m)) = _
    rw [addUsize_ok hsz]
    rfl
  have hiff : (n + size ≤ p.buffer.length ∧ ∀ e ∈ openSlices p.stack, 8 * (n + size) ≤ bitPos e) ↔
      n + size ≤ m := by
    constructor
    · intro ⟨h1, h2⟩
      have hlim : limPos p.buffer.length p.stack = 8 * m := hlp
      unfold limPos at hlim
      rcases limit_cases p.buffer.length p.stack with hc | ⟨e, he, hc⟩
      · rw [hc] at hlim; simp only [Option.getD_none, bitPos] at hlim; omega
      · rw [hc] at hlim; have := h2 e he; simp only [Option.getD_some] at hlim; omega
    · intro hle
      refine ⟨by omega, fun e he => ?_⟩
      have := limPos_le_open hi.wf e he
      omega
  rw [hiff]
  unfold Parser.startSlice
  rw [hinc, hl]
  simp only [gt_bytes]
  constructor
  · intro hle
    rw [decide_eq_false (by omega)]
    rfl
  · intro hle
    rw [decide_eq_true (by omega)]
    rfl

theorem RunOk.run : ∀ {ops : List Op} {p q : Parser}, RunOk p ops q → Rt.run p ops = .ok q
  | [], _, _, h => by cases h; rfl
  | _ :: _, _, _, h => by
    cases h with
    | readByte h1 h2 => simp only [Rt.run, Op.exec, h1]; exact h2.run
    | advanceBy h1 h2 => simp only [Rt.run, Op.exec, h1]; exact h2.run
    | advanceOrSeek h1 h2 => simp only [Rt.run, Op.exec, h1]; exact h2.run
    | skipRemainder h2 => exact h2.run
    | skipAlign h1 h2 => simp only [Rt.run, Op.exec, h1]; exact h2.run
    | enterBitsMode h1 h2 => simp only [Rt.run, Op.exec, h1]; exact h2.run
    | escapeBitsMode h1 h2 => simp only [Rt.run, Op.exec, h1]; exact h2.run
    | startSlice h1 h2 => simp only [Rt.run, Op.exec, h1]; exact h2.run
    | endSlice h1 h2 => simp only [Rt.run, Op.exec, h1]; exact h2.run
    | openPeek h2 => exact h2.run
    | closePeek h1 h2 => simp only [Rt.run, Op.exec, h1]; exact h2.run
    | openPeekNot h2 => exact h2.run
    | closePeekNot h1 h2 => simp only [Rt.run, Op.exec, h1]; exact h2.run
    | startAlt h2 => exact h2.run
    | nextAlt h1 h2 => simp only [Rt.run, Op.exec, h1]; exact h2.run

/-- **C34.**  Closing a slice after any well-bracketed careful history of successful calls succeeds, puts the
cursor exactly at the end of the slice and restores the window around it: the parser is the one at which the
slice was opened, moved by `size`. -/
theorem C34_close (buf : List UInt8) (start : Nat) (ops body : List Op) (p p1 m : Parser) (size : Nat)
    (hc : CarefulRun (.ofView buf start) ops) (h : run (.ofView buf start) ops = .ok p)
    (hcs : Checked p size) (h1 : p.startSlice size = .ok () p1)
    (hcb : CarefulRun p1 body) (hb : Bracketed body) (h2 : RunOk p1 body m) :
    ∃ e, p.offset.incrementBy size = .ok e ∧ m.endSlice = .ok () { p with offset := e } := by
  have hi := Inv.run (Inv.new buf start) hc h
  have hi1 : Inv p1 := hi.step (op := .startSlice size) hcs (by simp only [Op.exec, h1])
  have him := Inv.run hi1 hcb h2.run
  obtain ⟨e, he, _, hp1⟩ := startSlice_frame h1
  obtain ⟨hf, al, ha, hs, _⟩ := hb.stack h2
  refine ⟨e, he, ?_⟩
  have hs' : m.stack = al ++ .slice e :: p.stack := by rw [hs, hp1]
  have hg : m.offset.gt e = false := by
    apply gt_false_of_le
    have hcur := him.cur
    have : ∀ al : ViewStack, AllAlts al →
        limPos m.buffer.length (al ++ .slice e :: p.stack) = bitPos e := by
      intro al
      induction al with
      | nil => intro _; rfl
      | cons l al ih =>
        intro hal
        obtain ⟨c, rfl⟩ := hal l List.mem_cons_self
        exact ih (fun x hx => hal x (List.mem_cons_of_mem _ hx))
    rw [hs', this al ha] at hcur
    exact hcur
  unfold Parser.endSlice
  rw [hs', closeSlice_skip ha]
  simp only [Parser.closeSliceFrom, hg, Bool.false_eq_true, if_false]
  have : ({ m with offset := e, stack := p.stack } : Parser) = { p with offset := e } := by
    refine Frame.eq ?_ rfl rfl
    rw [hp1] at hf
    exact ⟨hf.1, hf.2.1, hf.2.2⟩
  rw [this]

/-- **C34.**  At the end of an open slice every read and every skip fails and changes nothing (byte mode). -/
theorem C34_read_past (buf : List UInt8) (start : Nat) (ops : List Op) (p : Parser) (e : ByteOffset)
    (d : Nat) (hd : 0 < d) (hlen : buf.length + d < usizeCard) (hn : .enterBitsMode ∉ ops)
    (h : run (.ofView buf start) ops = .ok p) (he : e ∈ openSlices p.stack) (hat : p.offset = e) :
    (∃ er, p.readByte = .err er p) ∧ (∃ er, p.advanceBy d = .err er p) := by
  obtain ⟨hi, hb⟩ := bytes_reach hn h
  obtain ⟨m, hl, hlp, hm⟩ := limit_bytes hi hb
  have hbuf : p.buffer = buf := (run_buffer h).1
  subst hbuf
  obtain ⟨⟨n, hn'⟩, _⟩ := C32_window p.buffer start ops p hn h
  have hle := limPos_le_open hi.wf e he
  rw [← hat, hn', hlp] at hle
  simp only [bitPos] at hle
  have hcur := hi.cur
  rw [hn', hlp] at hcur
  simp only [bitPos] at hcur
  refine ⟨(readByte_bytes hn' hl hm (by omega)).2 (by omega) (by omega), ?_⟩
  have hinc : p.offset.incrementBy d = .ok (.bytes (n + d)) := by
    rw [hn']
    show (addUsize n d >>= fun m => Panicky.ok (ByteOffset.bytes m)) = _
    rw [addUsize_ok (by omega)]
    rfl
  rcases tryIncrement_cases hinc with ⟨hg, _⟩ | ⟨_, er, her⟩
  · rw [hl, gt_bytes] at hg
    have := of_decide_eq_false hg
    omega
  · exact ⟨er, by unfold Parser.advanceBy; rw [her]; rfl⟩

example : ∃ p1 m, (Parser.new [1, 2, 3]).startSlice 2 = .ok () p1 ∧
    CarefulRun p1 [.readByte, .openPeek, .closePeek] ∧
    Bracketed [.readByte, .openPeek, .closePeek] ∧ RunOk p1 [.readByte, .openPeek, .closePeek] m :=
  ⟨_, _, by rfl,
    ⟨(fun h => by cases h), fun _ _ => ⟨trivial, fun _ _ => ⟨trivial, fun _ _ => trivial⟩⟩⟩,
    .plain rfl (.peek (body := []) .nil .nil),
    .readByte (by rfl) (.openPeek (.closePeek (by rfl) (.nil _)))⟩

/-- **C34 is false of bit mode.**  A well-bracketed history of successful calls that reads bits past the end
of a slice makes closing the slice fail, and the failure forgets every open context. -/
theorem C34_bits_refuted : ∃ (p p1 m q : Parser) (body : List Op), Bracketed body ∧
    p.startSlice 1 = .ok () p1 ∧ RunOk p1 body m ∧ m.endSlice = .err .sliceOverrun q ∧
    p.stack ≠ [] ∧ q.stack = [] := by
  refine ⟨(Parser.new [0, 1]).startAlt, _, _, _, [.enterBitsMode, .advanceBy 9, .escapeBitsMode],
    .plain rfl (.plain rfl (.plain rfl .nil)), by rfl,
    .enterBitsMode (by rfl) (.advanceBy (by rfl) (.escapeBitsMode (by rfl) (.nil _))), by rfl,
    by decide, by decide⟩

/-! ### C35 -/

theorem bit_of_byte (b : UInt8) {n : Nat} (hn : n < 8) :
    (b &&& (1 <<< UInt8.ofNat n)) >>> UInt8.ofNat n = UInt8.ofNat (b.toNat / 2 ^ n % 2) := by
  have key : ∀ (k : Fin 256) (n : Fin 8),
      ((UInt8.ofNat k.val) &&& (1 <<< UInt8.ofNat n.val)) >>> UInt8.ofNat n.val =
        UInt8.ofNat (k.val / 2 ^ n.val % 2) := by decide +kernel
  have hb := b.toNat_lt
  have := key ⟨b.toNat, hb⟩ ⟨n, hn⟩
  simpa using this

theorem bitStream_length : ∀ buf : List UInt8, (bitStream buf).length = 8 * buf.length
  | [] => rfl
  | b :: bs => by
    have := bitStream_length bs
    simp only [bitStream, List.flatMap_cons, List.length_append, List.length_map, List.length_range,
      List.length_cons] at this ⊢
    omega

theorem bitStream_get : ∀ (buf : List UInt8) (i : Nat) (h : i / 8 < buf.length),
    (bitStream buf)[i]? = some (UInt8.ofNat (buf[i / 8].toNat / 2 ^ (i % 8) % 2))
  | [], i, h => by simp at h
  | b :: bs, i, h => by
    have hcons : bitStream (b :: bs) =
        (List.range 8).map (fun i => UInt8.ofNat (b.toNat / 2 ^ i % 2)) ++ bitStream bs := by
      simp [bitStream]
    rw [hcons]
    by_cases hi : i < 8
    · rw [List.getElem?_append_left (by simpa using hi)]
      have h0 : i / 8 = 0 := by omega
      have h1 : i % 8 = i := by omega
      simp only [h0, h1, List.getElem_cons_zero]
      simp [hi]
    · rw [List.getElem?_append_right (by simp; omega)]
      have h1 : (i - 8) / 8 < bs.length := by simp at h; omega
      have := bitStream_get bs (i - 8) h1
      simp only [List.length_map, List.length_range]
      rw [this]
      have e1 : (i - 8) / 8 = i / 8 - 1 := by omega
      have e2 : (i - 8) % 8 = i % 8 := by omega
      have e3 : i / 8 = (i / 8 - 1) + 1 := by omega
      have e4 : (b :: bs)[i / 8]'h = bs[(i - 8) / 8] := by
        rw [List.getElem_cons, dif_neg (by omega)]
        simp only [e1]
      rw [e4, e2]

/-- one read in bit mode -/
theorem readByte_bits {p : Parser} {s a : Nat} (hi : Inv p) (ho : p.offset = .bits s a)
    (hlen : 8 * p.buffer.length < usizeCard)
    (hr : 8 * s + a < limPos p.buffer.length p.stack) :
    ∃ b, (bitStream p.buffer)[8 * s + a]? = some b ∧
      p.readByte = .ok b { p with offset := .bits s (a + 1) } := by
  have hle := limPos_le hi.wf
  have hinc : p.offset.incrementBy 1 = .ok (.bits s (a + 1)) := by
    rw [ho]
    show (addUsize a 1 >>= fun m => Panicky.ok (ByteOffset.bits s m)) = _
    rw [addUsize_ok (by omega)]
    rfl
  rcases tryIncrement_cases hinc with ⟨_, he⟩ | ⟨hg, _⟩
  · have hq : s + a / 8 < p.buffer.length := by omega
    have hdiv : (8 * s + a) / 8 = s + a / 8 := by omega
    have hmod : (8 * s + a) % 8 = a % 8 := by omega
    have hget := bitStream_get p.buffer (8 * s + a) (by omega)
    refine ⟨_, hget, ?_⟩
    unfold Parser.readByte
    rw [he]
    simp only [OpRes.bind, ho, ByteOffset.asBytes]
    rw [List.getElem?_eq_getElem hq]
    simp only
    rw [bit_of_byte _ (by omega)]
    simp only [hdiv, hmod]
  · have hl := currentLimit_eq hi.max
    have : (ByteOffset.bits s (a + 1)).gt p.currentLimit = false := by
      apply gt_false_of_le
      rw [hl]
      simp only [bitPos]
      omega
    rw [hg] at this
    cases this

/-- **C35.**  In bit mode, after any careful history, successive reads inside the window deliver the bits of
the buffer in order, each byte from its least to its most significant bit. -/
theorem C35_reads (buf : List UInt8) (start : Nat) (ops : List Op) (hlen : 8 * buf.length < usizeCard)
    (p : Parser) (s a : Nat) (hc : CarefulRun (.ofView buf start) ops)
    (h : run (.ofView buf start) ops = .ok p) (ho : p.offset = .bits s a) (k : Nat)
    (hk : ∀ i < k, Readable p (8 * s + a + i)) :
    Reads p (((bitStream buf).drop (8 * s + a)).take k) { p with offset := .bits s (a + k) } := by
  have hi := Inv.run (Inv.new buf start) hc h
  have hbuf : p.buffer = buf := (run_buffer h).1
  subst hbuf
  have key : ∀ (k : Nat) (p : Parser) (a : Nat), Inv p → 8 * p.buffer.length < usizeCard →
      p.offset = .bits s a → 8 * s + a + k ≤ limPos p.buffer.length p.stack →
      Reads p (((bitStream p.buffer).drop (8 * s + a)).take k) { p with offset := .bits s (a + k) } := by
    intro k
    induction k with
    | zero =>
      intro p a _ _ ho _
      simp only [List.take_zero, Nat.add_zero]
      have : ({ p with offset := .bits s a } : Parser) = p := by cases p; simp only at ho; subst ho; rfl
      rw [this]
      exact .nil p
    | succ k ih =>
      intro p a hi hlen ho hk
      obtain ⟨b, hb, hread⟩ := readByte_bits hi ho hlen (by omega)
      have hlt : 8 * s + a < (bitStream p.buffer).length := by
        obtain ⟨h', _⟩ := List.getElem?_eq_some_iff.mp hb
        exact h'
      have hb' : (bitStream p.buffer)[8 * s + a] = b := (List.getElem?_eq_some_iff.mp hb).2
      rw [List.drop_eq_getElem_cons hlt, List.take_succ_cons, hb']
      refine .cons hread ?_
      have := ih { p with offset := .bits s (a + 1) } (a + 1)
        ⟨hi.max, hi.wf, by simp only [bitPos]; omega⟩ hlen rfl (by simp only; omega)
      have e1 : 8 * s + (a + 1) = 8 * s + a + 1 := by omega
      have e2 : a + 1 + k = a + (k + 1) := by omega
      rw [e1, e2] at this
      exact this
  refine key k p a hi hlen ho ?_
  cases k with
  | zero => have := hi.cur; rw [ho] at this; simpa [bitPos] using this
  | succ k =>
    have := (limPos_readable hi _).mp (hk k (by omega))
    omega

/-- **C35.**  The bit stream of the runtime parser is the one that the interpreter's `Bits` format decodes. -/
theorem C35_interpreter (buf : List UInt8) : Decoder.bitsOf buf = bitStream buf := by
  have key : ∀ b : UInt8, Decoder.bitsOfByte b =
      (List.range 8).map fun i => UInt8.ofNat (b.toNat / 2 ^ i % 2) := by
    intro b
    unfold Decoder.bitsOfByte
    apply List.map_congr_left
    intro i _
    rw [Nat.testBit_eq_decide_div_mod_eq]
    rcases Nat.mod_two_eq_zero_or_one (b.toNat / 2 ^ i) with h | h <;> rw [h] <;> rfl
  unfold Decoder.bitsOf bitStream
  congr 1
  exact funext key

/-- **C35.**  Leaving bit mode reports the number of bits read in it and moves to the next byte boundary. -/
theorem C35_escape (p : Parser) (s a : Nat) (ho : p.offset = .bits s a) :
    ∃ n, p.escapeBitsMode = .ok a { p with offset := .bytes n } ∧
      8 * s + a ≤ 8 * n ∧ 8 * n < 8 * s + a + 8 := by
  refine ⟨_, by unfold Parser.escapeBitsMode; rw [ho], ?_⟩
  split <;> omega

/-- **C35.**  The interpreter leaves a `Bits` format at the same boundary: having consumed `k` of the bits of
the remaining input, it goes on `⌈k/8⌉` bytes further. -/
theorem C35_interpreter_escape (input : ReadCtxt) (v : Value) (k : Nat)
    (hin : input.offset ≤ input.input.length) (hlen : input.input.length < usizeCard)
    (hk : k ≤ 8 * (input.input.length - input.offset)) :
    Decoder.finishBits input (v, ⟨bitStream (input.input.drop input.offset), k⟩) =
      .ok (WithErr.new (v, { input with offset := input.offset + (k + 7) / 8 })) := by
  have hL : (bitStream (input.input.drop input.offset)).length = 8 * (input.input.length - input.offset) := by
    rw [bitStream_length, List.length_drop]
  unfold Decoder.finishBits
  simp only [ReadCtxt.remaining, hL, if_pos hk, if_pos hin, Outcome.ofPanicky, Outcome.bind_ok,
    List.length_drop]
  have h1 : (8 * (input.input.length - input.offset) - k) / 8 =
      (input.input.length - input.offset) - (k + 7) / 8 := by omega
  rw [h1, if_neg (by omega)]
  have h2 : input.input.length - input.offset -
      (input.input.length - input.offset - (k + 7) / 8) = (k + 7) / 8 := by omega
  rw [h2]
  unfold ReadCtxt.splitAt
  rw [addUsize_ok (by omega)]
  simp only [if_pos (show input.offset + (k + 7) / 8 ≤ input.input.length by omega), Outcome.bind_ok]

example : run (.new [0xB4]) [.enterBitsMode] = .ok
    { buffer := [0xB4], startOffset := 0, offset := .bits 0 0, stack := [], maxOffset := .bytes 1 } ∧
    bitStream [0xB4] = [0, 0, 1, 0, 1, 1, 0, 1] := by decide +kernel

/-- **C35 is false when the rest is skipped in bit mode.**  `skip_remainder` silently returns to byte mode,
so that leaving bit mode afterwards fails; the code generated for `Bits(SkipRemainder)` never succeeds. -/
theorem C35_skip_refuted (buf : List UInt8) : ∃ p e, run (.new buf) [.enterBitsMode, .skipRemainder] = .ok p ∧
    p.escapeBitsMode = .err e p :=
  ⟨_, _, rfl, rfl⟩

end Rt
end Doodle
