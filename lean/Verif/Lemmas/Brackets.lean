import Verif.Lemmas.Parser

/-! Lemmas about well-bracketed histories of the runtime parser. -/

namespace Doodle
namespace Rt

/-- the parts of a parser that no operation changes -/
def Frame (p q : Parser) : Prop :=
  q.buffer = p.buffer ∧ q.startOffset = p.startOffset ∧ q.maxOffset = p.maxOffset

theorem Frame.refl (p : Parser) : Frame p p := ⟨rfl, rfl, rfl⟩
theorem Frame.trans {p q r : Parser} (h1 : Frame p q) (h2 : Frame q r) : Frame p r :=
  ⟨h2.1.trans h1.1, h2.2.1.trans h1.2.1, h2.2.2.trans h1.2.2⟩

theorem Frame.eq {p q : Parser} (h : Frame p q) (ho : q.offset = p.offset) (hs : q.stack = p.stack) :
    q = p := by
  cases p; cases q
  obtain ⟨h1, h2, h3⟩ := h
  simp only at *
  subst h1 h2 h3 ho hs
  rfl

theorem tryIncrement_frame {p q : Parser} {d : Nat} {o : ByteOffset} (h : p.tryIncrement d = .ok o q) :
    Frame p q ∧ q.stack = p.stack ∧ o = p.offset := by
  unfold Parser.tryIncrement at h
  split at h
  · cases h
  · split at h <;> (split at h <;> cases h) <;> exact ⟨⟨rfl, rfl, rfl⟩, rfl, rfl⟩

theorem tryIncrement_err {p q : Parser} {d : Nat} {e : PErr} (h : p.tryIncrement d = .err e q) : q = p := by
  unfold Parser.tryIncrement at h
  split at h
  · cases h
  · split at h <;> (split at h <;> cases h) <;> rfl

theorem advanceBy_frame {p q : Parser} {d : Nat} {u : Unit} (h : p.advanceBy d = .ok u q) :
    Frame p q ∧ q.stack = p.stack := by
  obtain ⟨a, q', h1, h2⟩ := OpRes.bind_eq_ok.mp h
  cases h2
  exact ⟨(tryIncrement_frame h1).1, (tryIncrement_frame h1).2.1⟩

theorem advanceBy_err {p q : Parser} {d : Nat} {e : PErr} (h : p.advanceBy d = .err e q) : q = p := by
  rcases OpRes.bind_eq_err.mp h with h1 | ⟨_, _, _, h2⟩
  · exact tryIncrement_err h1
  · cases h2

theorem readByte_frame {p q : Parser} {b : UInt8} (h : p.readByte = .ok b q) :
    Frame p q ∧ q.stack = p.stack := by
  obtain ⟨a, q', h1, h2⟩ := OpRes.bind_eq_ok.mp h
  obtain ⟨h3, h4, _⟩ := tryIncrement_frame h1
  split at h2
  · cases h2
  · split at h2 <;> (cases h2; exact ⟨h3, h4⟩)

theorem readByte_err_frame {p q : Parser} {e : PErr} (h : p.readByte = .err e q) :
    Frame p q ∧ q.stack = p.stack := by
  rcases OpRes.bind_eq_err.mp h with h1 | ⟨a, q', h1, h2⟩
  · rw [tryIncrement_err h1]; exact ⟨.refl _, rfl⟩
  · obtain ⟨h3, h4, _⟩ := tryIncrement_frame h1
    split at h2
    · cases h2; exact ⟨h3, h4⟩
    · split at h2 <;> cases h2

theorem lift_ok {α : Type} {p q : Parser} {x : Panicky α} {a : α} (h : OpRes.lift p x = .ok a q) : q = p := by
  cases x with
  | ok b => cases h; rfl
  | panic => cases h

theorem lift_err {α : Type} {p q : Parser} {x : Panicky α} {e : PErr} (h : OpRes.lift p x = .err e q) :
    False := by cases x <;> cases h

theorem skipAlign_frame {p q : Parser} {n : Nat} :
    (∀ u, p.skipAlign n = .ok u q → Frame p q ∧ q.stack = p.stack) ∧
    (∀ e, p.skipAlign n = .err e q → Frame p q ∧ q.stack = p.stack) := by
  unfold Parser.skipAlign
  split
  · exact ⟨(fun _ h => nomatch h), (fun _ h => nomatch h)⟩
  · constructor
    · intro u h
      obtain ⟨d, q1, h1, h2⟩ := OpRes.bind_eq_ok.mp h
      obtain ⟨o, q2, h3, h4⟩ := OpRes.bind_eq_ok.mp h1
      have e1 := lift_ok h3
      have e2 := lift_ok h4
      subst e2; subst e1
      exact advanceBy_frame h2
    · intro e h
      rcases OpRes.bind_eq_err.mp h with h1 | ⟨d, q1, h1, h2⟩
      · rcases OpRes.bind_eq_err.mp h1 with h3 | ⟨_, _, _, h4⟩
        · exact (lift_err h3).elim
        · exact (lift_err h4).elim
      · obtain ⟨o, q2, h3, h4⟩ := OpRes.bind_eq_ok.mp h1
        have e1 := lift_ok h3
        have e2 := lift_ok h4
        subst e2; subst e1
        rw [advanceBy_err h2]
        exact ⟨.refl _, rfl⟩

/-- a plain call leaves the contexts alone -/
theorem plain_step {p q : Parser} {op : Op} {ops : List Op} (hp : op.plain = true)
    (h : RunOk p (op :: ops) q) : ∃ p1, RunOk p1 ops q ∧ Frame p p1 ∧ p1.stack = p.stack := by
  cases h with
  | readByte h1 h2 => exact ⟨_, h2, readByte_frame h1⟩
  | advanceBy h1 h2 => exact ⟨_, h2, advanceBy_frame h1⟩
  | skipRemainder h2 => exact ⟨_, h2, ⟨rfl, rfl, rfl⟩, rfl⟩
  | skipAlign h1 h2 => exact ⟨_, h2, skipAlign_frame.1 _ h1⟩
  | enterBitsMode h1 h2 =>
    refine ⟨_, h2, ?_⟩
    unfold Parser.enterBitsMode at h1
    split at h1 <;> cases h1
    exact ⟨⟨rfl, rfl, rfl⟩, rfl⟩
  | escapeBitsMode h1 h2 =>
    refine ⟨_, h2, ?_⟩
    unfold Parser.escapeBitsMode at h1
    split at h1
    · simp only [OpRes.ok.injEq] at h1
      rw [← h1.2]
      exact ⟨⟨rfl, rfl, rfl⟩, rfl⟩
    · cases h1
  | advanceOrSeek _ _ => cases hp
  | startSlice _ _ => cases hp
  | endSlice _ _ => cases hp
  | openPeek _ => cases hp
  | closePeek _ _ => cases hp
  | openPeekNot _ => cases hp
  | closePeekNot _ _ => cases hp
  | startAlt _ => cases hp
  | nextAlt _ _ => cases hp

theorem advanceOrSeek_frame {p q : Parser} {d : Nat} {b : Bool} (h : p.advanceOrSeek d = .ok b q) :
    Frame p q ∧ ∃ l : Lens, q.stack = l :: p.stack ∧ l.restore = some p.offset ∧ l.recover = none := by
  unfold Parser.advanceOrSeek at h
  split at h
  · cases h
  · split at h
    · cases h
    · obtain ⟨o, q', h1, h2⟩ := OpRes.bind_eq_ok.mp h
      cases h2
      obtain ⟨h3, h4, _⟩ := tryIncrement_frame h1
      exact ⟨Frame.trans ⟨rfl, rfl, rfl⟩ h3, .peek p.offset, h4, rfl, rfl⟩
    · obtain ⟨o, q', h1, h2⟩ := OpRes.bind_eq_ok.mp h
      cases h2
      unfold Parser.seekToOffset at h1
      simp only at h1
      split at h1
      · cases h1
      · split at h1 <;> cases h1
        exact ⟨⟨rfl, rfl, rfl⟩, _, rfl, rfl, rfl⟩

theorem advanceOrSeek_err {p q : Parser} {d : Nat} {e : PErr} (h : p.advanceOrSeek d = .err e q) :
    q = p ∨ q = p.openPeek := by
  unfold Parser.advanceOrSeek at h
  split at h
  · cases h; exact .inl rfl
  · split at h
    · cases h
    · rcases OpRes.bind_eq_err.mp h with h1 | ⟨_, _, _, h2⟩
      · exact .inr (tryIncrement_err h1)
      · cases h2
    · rcases OpRes.bind_eq_err.mp h with h1 | ⟨_, _, _, h2⟩
      · unfold Parser.seekToOffset at h1
        simp only at h1
        split at h1
        · cases h1; exact .inl rfl
        · split at h1 <;> cases h1
      · cases h2

theorem startSlice_frame {p q : Parser} {n : Nat} {u : Unit} (h : p.startSlice n = .ok u q) :
    ∃ e, p.offset.incrementBy n = .ok e ∧ e.gt p.currentLimit = false ∧
      q = { p with stack := .slice e :: p.stack } := by
  unfold Parser.startSlice at h
  split at h
  · cases h
  · rename_i e he
    split at h
    · cases h
    · rename_i hg
      cases h
      exact ⟨e, he, Bool.eq_false_iff.mpr hg, rfl⟩

theorem startSlice_err {p q : Parser} {n : Nat} {e : PErr} (h : p.startSlice n = .err e q) : q = p := by
  unfold Parser.startSlice at h
  split at h
  · cases h
  · split at h <;> cases h
    rfl

theorem RunOk.split : ∀ {a b : List Op} {p q : Parser}, RunOk p (a ++ b) q → ∃ m, RunOk p a m ∧ RunOk m b q
  | [], _, p, _, h => ⟨p, .nil p, h⟩
  | op :: a, b, p, q, h => by
    cases h with
    | readByte h1 h2 => obtain ⟨m, h3, h4⟩ := RunOk.split h2; exact ⟨m, .readByte h1 h3, h4⟩
    | advanceBy h1 h2 => obtain ⟨m, h3, h4⟩ := RunOk.split h2; exact ⟨m, .advanceBy h1 h3, h4⟩
    | advanceOrSeek h1 h2 => obtain ⟨m, h3, h4⟩ := RunOk.split h2; exact ⟨m, .advanceOrSeek h1 h3, h4⟩
    | skipRemainder h2 => obtain ⟨m, h3, h4⟩ := RunOk.split h2; exact ⟨m, .skipRemainder h3, h4⟩
    | skipAlign h1 h2 => obtain ⟨m, h3, h4⟩ := RunOk.split h2; exact ⟨m, .skipAlign h1 h3, h4⟩
    | enterBitsMode h1 h2 => obtain ⟨m, h3, h4⟩ := RunOk.split h2; exact ⟨m, .enterBitsMode h1 h3, h4⟩
    | escapeBitsMode h1 h2 => obtain ⟨m, h3, h4⟩ := RunOk.split h2; exact ⟨m, .escapeBitsMode h1 h3, h4⟩
    | startSlice h1 h2 => obtain ⟨m, h3, h4⟩ := RunOk.split h2; exact ⟨m, .startSlice h1 h3, h4⟩
    | endSlice h1 h2 => obtain ⟨m, h3, h4⟩ := RunOk.split h2; exact ⟨m, .endSlice h1 h3, h4⟩
    | openPeek h2 => obtain ⟨m, h3, h4⟩ := RunOk.split h2; exact ⟨m, .openPeek h3, h4⟩
    | closePeek h1 h2 => obtain ⟨m, h3, h4⟩ := RunOk.split h2; exact ⟨m, .closePeek h1 h3, h4⟩
    | openPeekNot h2 => obtain ⟨m, h3, h4⟩ := RunOk.split h2; exact ⟨m, .openPeekNot h3, h4⟩
    | closePeekNot h1 h2 => obtain ⟨m, h3, h4⟩ := RunOk.split h2; exact ⟨m, .closePeekNot h1 h3, h4⟩
    | startAlt h2 => obtain ⟨m, h3, h4⟩ := RunOk.split h2; exact ⟨m, .startAlt h3, h4⟩
    | nextAlt h1 h2 => obtain ⟨m, h3, h4⟩ := RunOk.split h2; exact ⟨m, .nextAlt h1 h3, h4⟩

/-- the lenses that successful alternations leave on the stack -/
def AllAlts (al : ViewStack) : Prop := ∀ l ∈ al, ∃ c, l = .alts c

theorem restore_skip {l : Lens} {o : ByteOffset} (hl : l.restore = some o) {rest : ViewStack} :
    ∀ {al : ViewStack}, AllAlts al → ViewStack.restore (al ++ l :: rest) = some (o, rest)
  | [], _ => by simp only [List.nil_append, ViewStack.restore, hl]
  | x :: al, h => by
    obtain ⟨c, rfl⟩ := h x List.mem_cons_self
    exact restore_skip hl (al := al) (fun l hl => h l (List.mem_cons_of_mem _ hl))

theorem closeSlice_skip {p : Parser} {s : ViewStack} : ∀ {al : ViewStack}, AllAlts al →
    Parser.closeSliceFrom p (al ++ s) = Parser.closeSliceFrom p s
  | [], _ => rfl
  | x :: al, h => by
    obtain ⟨c, rfl⟩ := h x List.mem_cons_self
    exact closeSlice_skip (al := al) (fun l hl => h l (List.mem_cons_of_mem _ hl))

theorem recover_skip {l : Lens} {o : ByteOffset} (hl : l.recover = some o) {rest : ViewStack} :
    ∀ {junk : ViewStack}, (∀ x ∈ junk, x.recover = none) →
      ViewStack.recover (junk ++ l :: rest) = some (o, rest)
  | [], _ => by simp only [List.nil_append, ViewStack.recover, hl]
  | x :: junk, h => by
    simp only [List.cons_append, ViewStack.recover, h x List.mem_cons_self]
    exact recover_skip hl (junk := junk) (fun l hl => h l (List.mem_cons_of_mem _ hl))

theorem AllAlts.append {a b : ViewStack} (ha : AllAlts a) (hb : AllAlts b) : AllAlts (a ++ b) :=
  fun l hl => (List.mem_append.mp hl).elim (ha l) (hb l)

/-- closing a peek or seek after a body that left only stale alternations -/
theorem closePeek_body {p p1 m m' : Parser} {l : Lens} {al : ViewStack} {u : Unit}
    (hf1 : Frame p p1) (hs1 : p1.stack = l :: p.stack) (hl : l.restore = some p.offset)
    (hf2 : Frame p1 m) (hal : AllAlts al) (hs2 : m.stack = al ++ p1.stack)
    (h : m.closePeek = .ok u m') : m' = p := by
  unfold Parser.closePeek at h
  rw [hs2, hs1, restore_skip hl hal] at h
  simp only [OpRes.ok.injEq, true_and] at h
  subst h
  exact Frame.eq (hf1.trans hf2) rfl rfl

theorem endSlice_body {p p1 m m' : Parser} {e : ByteOffset} {al : ViewStack} {u : Unit}
    (hf1 : Frame p p1) (hs1 : p1.stack = .slice e :: p.stack)
    (hf2 : Frame p1 m) (hal : AllAlts al) (hs2 : m.stack = al ++ p1.stack)
    (h : m.endSlice = .ok u m') : m' = { p with offset := e } := by
  unfold Parser.endSlice at h
  rw [hs2, hs1, closeSlice_skip hal] at h
  simp only [Parser.closeSliceFrom] at h
  split at h
  · cases h
  · simp only [OpRes.ok.injEq, true_and] at h
    subst h
    have hf := hf1.trans hf2
    refine Frame.eq ?_ rfl rfl
    exact ⟨hf.1, hf.2.1, hf.2.2⟩

theorem Bracketed.stack {ops : List Op} (hb : Bracketed ops) : ∀ {p q : Parser}, RunOk p ops q →
    Frame p q ∧ ∃ al, AllAlts al ∧ q.stack = al ++ p.stack ∧ (.startAlt ∉ ops → al = []) := by
  induction hb with
  | nil =>
    intro p q h
    cases h
    exact ⟨.refl _, [], (fun l hl => nomatch hl), rfl, fun _ => rfl⟩
  | @plain op ops hp hb ih =>
    intro p q h
    obtain ⟨p1, h2, hf, hs⟩ := plain_step hp h
    obtain ⟨hf2, al, ha, hs2, hn⟩ := ih h2
    exact ⟨hf.trans hf2, al, ha, by rw [hs2, hs], fun hn' => hn (fun hm => hn' (List.mem_cons_of_mem _ hm))⟩
  | @peek body ops hb1 hb2 ih1 ih2 =>
    intro p q h
    cases h with
    | openPeek h =>
      obtain ⟨m, h1, h2⟩ := h.split
      cases h2 with
      | closePeek h3 h4 =>
        obtain ⟨hf1, al1, ha1, hs1, _⟩ := ih1 h1
        have := closePeek_body (p := p) (p1 := p.openPeek) ⟨rfl, rfl, rfl⟩ rfl rfl hf1 ha1 hs1 h3
        subst this
        obtain ⟨hf2, al, ha, hs2, hn⟩ := ih2 h4
        refine ⟨hf2, al, ha, hs2, fun hn' => hn (fun hm => hn' ?_)⟩
        simp [hm]
  | @seek d body ops hb1 hb2 ih1 ih2 =>
    intro p q h
    cases h with
    | advanceOrSeek h0 h =>
      obtain ⟨hf0, l, hs0, hl, _⟩ := advanceOrSeek_frame h0
      obtain ⟨m, h1, h2⟩ := h.split
      cases h2 with
      | closePeek h3 h4 =>
        obtain ⟨hf1, al1, ha1, hs1, _⟩ := ih1 h1
        have := closePeek_body hf0 hs0 hl hf1 ha1 hs1 h3
        subst this
        obtain ⟨hf2, al, ha, hs2, hn⟩ := ih2 h4
        refine ⟨hf2, al, ha, hs2, fun hn' => hn (fun hm => hn' ?_)⟩
        simp [hm]
  | @slice n body ops hb1 hb2 ih1 ih2 =>
    intro p q h
    cases h with
    | startSlice h0 h =>
      obtain ⟨e, _, _, rfl⟩ := startSlice_frame h0
      obtain ⟨m, h1, h2⟩ := h.split
      cases h2 with
      | endSlice h3 h4 =>
        obtain ⟨hf1, al1, ha1, hs1, _⟩ := ih1 h1
        have := endSlice_body (p := p) (p1 := { p with stack := .slice e :: p.stack })
          ⟨rfl, rfl, rfl⟩ rfl hf1 ha1 hs1 h3
        subst this
        obtain ⟨hf2, al, ha, hs2, hn⟩ := ih2 h4
        refine ⟨⟨hf2.1, hf2.2.1, hf2.2.2⟩, al, ha, hs2, fun hn' => hn (fun hm => hn' ?_)⟩
        simp [hm]
  | @branch ops hb ih =>
    intro p q h
    cases h with
    | startAlt h =>
      obtain ⟨hf2, al, ha, hs2, hn⟩ := ih h
      refine ⟨⟨hf2.1, hf2.2.1, hf2.2.2⟩, al ++ [.alts p.offset], ?_, ?_, fun hn' => absurd List.mem_cons_self hn'⟩
      · exact ha.append (fun l hl => ⟨p.offset, List.mem_singleton.mp hl⟩)
      · rw [hs2]; simp [Parser.startAlt]

theorem BrokenOff.stack {ops : List Op} (hb : BrokenOff ops) : ∀ {p q : Parser}, RunOk p ops q →
    Frame p q ∧ ∃ junk : ViewStack, (∀ l ∈ junk, l.recover = none) ∧ q.stack = junk ++ p.stack := by
  induction hb with
  | nil =>
    intro p q h
    cases h
    exact ⟨.refl _, [], (fun l hl => nomatch hl), rfl⟩
  | @plain op ops hp hb ih =>
    intro p q h
    obtain ⟨p1, h2, hf, hs⟩ := plain_step hp h
    obtain ⟨hf2, junk, ha, hs2⟩ := ih h2
    exact ⟨hf.trans hf2, junk, ha, by rw [hs2, hs]⟩
  | @peek body ops hb1 hb2 ih2 =>
    intro p q h
    cases h with
    | openPeek h =>
      obtain ⟨m, h1, h2⟩ := h.split
      cases h2 with
      | closePeek h3 h4 =>
        obtain ⟨hf1, al1, ha1, hs1, _⟩ := hb1.stack h1
        have := closePeek_body (p := p) (p1 := p.openPeek) ⟨rfl, rfl, rfl⟩ rfl rfl hf1 ha1 hs1 h3
        subst this
        exact ih2 h4
  | @seek d body ops hb1 hb2 ih2 =>
    intro p q h
    cases h with
    | advanceOrSeek h0 h =>
      obtain ⟨hf0, l, hs0, hl, _⟩ := advanceOrSeek_frame h0
      obtain ⟨m, h1, h2⟩ := h.split
      cases h2 with
      | closePeek h3 h4 =>
        obtain ⟨hf1, al1, ha1, hs1, _⟩ := hb1.stack h1
        have := closePeek_body hf0 hs0 hl hf1 ha1 hs1 h3
        subst this
        exact ih2 h4
  | @slice n body ops hb1 hb2 ih2 =>
    intro p q h
    cases h with
    | startSlice h0 h =>
      obtain ⟨e, _, _, rfl⟩ := startSlice_frame h0
      obtain ⟨m, h1, h2⟩ := h.split
      cases h2 with
      | endSlice h3 h4 =>
        obtain ⟨hf1, al1, ha1, hs1, _⟩ := hb1.stack h1
        have := endSlice_body (p := p) (p1 := { p with stack := .slice e :: p.stack })
          ⟨rfl, rfl, rfl⟩ rfl hf1 ha1 hs1 h3
        subst this
        obtain ⟨hf2, junk, ha, hs2⟩ := ih2 h4
        exact ⟨⟨hf2.1, hf2.2.1, hf2.2.2⟩, junk, ha, hs2⟩
  | @opened op ops ho hb ih =>
    intro p q h
    have key : ∃ p1 l, RunOk p1 ops q ∧ Frame p p1 ∧ p1.stack = l :: p.stack ∧ l.recover = none := by
      cases h with
      | openPeek h => exact ⟨_, .peek p.offset, h, ⟨rfl, rfl, rfl⟩, rfl, rfl⟩
      | advanceOrSeek h0 h =>
        obtain ⟨hf0, l, hs0, _, hl⟩ := advanceOrSeek_frame h0
        exact ⟨_, l, h, hf0, hs0, hl⟩
      | startSlice h0 h =>
        obtain ⟨e, _, _, rfl⟩ := startSlice_frame h0
        exact ⟨_, .slice e, h, ⟨rfl, rfl, rfl⟩, rfl, rfl⟩
      | readByte _ _ => cases ho
      | advanceBy _ _ => cases ho
      | skipRemainder _ => cases ho
      | skipAlign _ _ => cases ho
      | enterBitsMode _ _ => cases ho
      | escapeBitsMode _ _ => cases ho
      | endSlice _ _ => cases ho
      | closePeek _ _ => cases ho
      | openPeekNot _ => cases ho
      | closePeekNot _ _ => cases ho
      | startAlt _ => cases ho
      | nextAlt _ _ => cases ho
    obtain ⟨p1, l, h1, hf, hs, hl⟩ := key
    obtain ⟨hf2, junk, ha, hs2⟩ := ih h1
    refine ⟨hf.trans hf2, junk ++ [l], ?_, by rw [hs2, hs]; simp⟩
    intro x hx
    rcases List.mem_append.mp hx with hx | hx
    · exact ha x hx
    · rw [List.mem_singleton.mp hx]; exact hl

/-- one more call, successful or not, that closes nothing -/
theorem last_call {p q : Parser} {op : Op} (ho : op.plain = true ∨ op.opens = true)
    (h : op.exec p = .ok q) :
    Frame p q ∧ ∃ junk : ViewStack, (∀ l ∈ junk, l.recover = none) ∧ q.stack = junk ++ p.stack := by
  have plain : Frame p q ∧ q.stack = p.stack →
      Frame p q ∧ ∃ junk : ViewStack, (∀ l ∈ junk, l.recover = none) ∧ q.stack = junk ++ p.stack :=
    fun hp => ⟨hp.1, [], (fun l hl => nomatch hl), hp.2⟩
  cases op with
  | readByte =>
    apply plain
    cases hr : p.readByte with
    | ok b q' => simp only [Op.exec, hr] at h; cases h; exact readByte_frame hr
    | err e q' => simp only [Op.exec, hr] at h; cases h; exact readByte_err_frame hr
    | panic => simp only [Op.exec, hr] at h; cases h
  | advanceBy n =>
    apply plain
    cases hr : p.advanceBy n with
    | ok b q' => simp only [Op.exec, hr] at h; cases h; exact advanceBy_frame hr
    | err e q' => simp only [Op.exec, hr] at h; cases h; rw [advanceBy_err hr]; exact ⟨.refl _, rfl⟩
    | panic => simp only [Op.exec, hr] at h; cases h
  | skipRemainder => cases h; exact plain ⟨⟨rfl, rfl, rfl⟩, rfl⟩
  | skipAlign n =>
    apply plain
    cases hr : p.skipAlign n with
    | ok b q' => simp only [Op.exec, hr] at h; cases h; exact skipAlign_frame.1 _ hr
    | err e q' => simp only [Op.exec, hr] at h; cases h; exact skipAlign_frame.2 _ hr
    | panic => simp only [Op.exec, hr] at h; cases h
  | enterBitsMode =>
    apply plain
    simp only [Op.exec, Parser.enterBitsMode] at h
    split at h
    · rename_i heq
      split at heq <;> cases heq
      cases h
      exact ⟨⟨rfl, rfl, rfl⟩, rfl⟩
    · rename_i heq
      split at heq <;> cases heq
      cases h
      exact ⟨⟨rfl, rfl, rfl⟩, rfl⟩
    · cases h
  | escapeBitsMode =>
    apply plain
    simp only [Op.exec, Parser.escapeBitsMode] at h
    cases ho2 : p.offset with
    | bytes n => rw [ho2] at h; cases h; exact ⟨⟨rfl, rfl, rfl⟩, rfl⟩
    | bits s a =>
      rw [ho2] at h
      simp only [Panicky.ok.injEq] at h
      rw [← h]
      exact ⟨⟨rfl, rfl, rfl⟩, rfl⟩
  | advanceOrSeek d =>
    cases hr : p.advanceOrSeek d with
    | ok b q' =>
      simp only [Op.exec, hr] at h
      cases h
      obtain ⟨hf, l, hs, _, hl⟩ := advanceOrSeek_frame hr
      exact ⟨hf, [l], (fun x hx => by rw [List.mem_singleton.mp hx]; exact hl), hs⟩
    | err e q' =>
      simp only [Op.exec, hr] at h
      cases h
      rcases advanceOrSeek_err hr with h1 | h1
      · rw [h1]; exact ⟨.refl _, [], (fun l hl => nomatch hl), rfl⟩
      · rw [h1]
        exact ⟨⟨rfl, rfl, rfl⟩, [.peek p.offset],
          (fun x hx => by rw [List.mem_singleton.mp hx]; rfl), rfl⟩
    | panic => simp only [Op.exec, hr] at h; cases h
  | startSlice n =>
    cases hr : p.startSlice n with
    | ok b q' =>
      simp only [Op.exec, hr] at h
      cases h
      obtain ⟨e, _, _, h2⟩ := startSlice_frame hr
      subst h2
      exact ⟨⟨rfl, rfl, rfl⟩, [.slice e], (fun x hx => by rw [List.mem_singleton.mp hx]; rfl), rfl⟩
    | err e q' =>
      simp only [Op.exec, hr] at h
      cases h
      rw [startSlice_err hr]
      exact ⟨.refl _, [], (fun l hl => nomatch hl), rfl⟩
    | panic => simp only [Op.exec, hr] at h; cases h
  | openPeek =>
    cases h
    exact ⟨⟨rfl, rfl, rfl⟩, [.peek p.offset],
      (fun x hx => by rw [List.mem_singleton.mp hx]; rfl), rfl⟩
  | endSlice => simp [Op.plain, Op.opens] at ho
  | closePeek => simp [Op.plain, Op.opens] at ho
  | openPeekNot => simp [Op.plain, Op.opens] at ho
  | closePeekNot => simp [Op.plain, Op.opens] at ho
  | startAlt => simp [Op.plain, Op.opens] at ho
  | nextAlt b => simp [Op.plain, Op.opens] at ho

end Rt
end Doodle
