import Verif.Lemmas.Sound
import Verif.Lemmas.CompileMono

/-! Properties C07, C09, C10, C11, C15, C16 and the error count of C17, for the interpreter. -/

namespace Doodle

open Grammar

/-! ### C07 -/

private theorem forward_items {σ : Type} {p : σ → ReadCtxt → Outcome DecodeErr Parsed}
    (hp : ∀ x c w, p x c = .ok w → Forward c w.value.2) {xs : List σ} {acc acc' : Decoder.Acc}
    (h : Decoder.foldItems p xs acc = .ok acc') : Forward acc.value.2 acc'.value.2 := by
  induction xs generalizing acc with
  | nil => cases h; exact .refl _
  | cons x xs ih =>
    obtain ⟨w, h1, h⟩ := Outcome.bind_eq_ok.1 h
    exact (hp _ _ _ h1).trans (ih h)

private theorem forward_while {t : MatchTree} {p : ReadCtxt → Outcome DecodeErr Parsed}
    (hp : ∀ c w, p c = .ok w → Forward c w.value.2) {n : Nat} {acc acc' : Decoder.Acc}
    (h : Decoder.whileLoop t p n acc = .ok acc') : Forward acc.value.2 acc'.value.2 := by
  induction n generalizing acc with
  | zero => cases h
  | succ n ih =>
    simp only [Decoder.whileLoop] at h
    split at h
    · cases h
    · obtain ⟨w, h1, h⟩ := Outcome.bind_eq_ok.1 h
      exact (hp _ _ h1).trans (ih h)
    · cases h; exact .refl _

private theorem forward_until {t : MatchTree} {p : ReadCtxt → Outcome DecodeErr Parsed}
    (hp : ∀ c w, p c = .ok w → Forward c w.value.2) {n : Nat} {acc acc' : Decoder.Acc}
    (h : Decoder.untilLoop t p n acc = .ok acc') : Forward acc.value.2 acc'.value.2 := by
  induction n generalizing acc with
  | zero => cases h
  | succ n ih =>
    simp only [Decoder.untilLoop] at h
    obtain ⟨w, h1, h⟩ := Outcome.bind_eq_ok.1 h
    split at h
    · cases h
    · cases h; exact hp _ _ h1
    · exact (hp _ _ h1).trans (ih h)

private theorem forward_between {t : MatchTree} {p : ReadCtxt → Outcome DecodeErr Parsed} {lo hi : Nat}
    {start : ReadCtxt} (hp : ∀ c w, p c = .ok w → Forward c w.value.2) {n : Nat} {acc acc' : Decoder.Acc}
    (h : Decoder.betweenLoop t lo hi start p n acc = .ok acc') : Forward acc.value.2 acc'.value.2 := by
  induction n generalizing acc with
  | zero => cases h
  | succ n ih =>
    simp only [Decoder.betweenLoop] at h
    split at h
    · cases h
    · split at h
      · split at h
        · cases h
        · cases h; exact .refl _
      · obtain ⟨w, h1, h⟩ := Outcome.bind_eq_ok.1 h
        exact (hp _ _ h1).trans (ih h)

private theorem forward_untilDone {done : Value → List Value → Panicky Bool}
    {p : ReadCtxt → Outcome DecodeErr Parsed} (hp : ∀ c w, p c = .ok w → Forward c w.value.2) {n : Nat}
    {acc acc' : Decoder.Acc} (h : Decoder.untilDoneLoop done p n acc = .ok acc') :
    Forward acc.value.2 acc'.value.2 := by
  induction n generalizing acc with
  | zero => cases h
  | succ n ih =>
    simp only [Decoder.untilDoneLoop] at h
    obtain ⟨w, h1, h⟩ := Outcome.bind_eq_ok.1 h
    obtain ⟨d, h2, h⟩ := Outcome.bind_eq_ok.1 h
    split at h
    · cases h; exact hp _ _ h1
    · exact (hp _ _ h1).trans (ih h)

private theorem forward_accum {done : Value → List Value → Panicky Bool} {upd : Value → Value → Panicky Value}
    {p : ReadCtxt → Outcome DecodeErr Parsed} (hp : ∀ c w, p c = .ok w → Forward c w.value.2) {n : Nat}
    {a r : Value} {acc acc' : Decoder.Acc} (h : Decoder.accumLoop done upd p n a acc = .ok (r, acc')) :
    Forward acc.value.2 acc'.value.2 := by
  induction n generalizing a acc with
  | zero => cases h
  | succ n ih =>
    simp only [Decoder.accumLoop] at h
    obtain ⟨d, h2, h⟩ := Outcome.bind_eq_ok.1 h
    split at h
    · cases h; exact .refl _
    · obtain ⟨w, h1, h⟩ := Outcome.bind_eq_ok.1 h
      obtain ⟨a', h3, h⟩ := Outcome.bind_eq_ok.1 h
      exact (hp _ _ h1).trans (ih h)

private theorem forward_parallel {p : Decoder → Outcome DecodeErr Parsed} {c : ReadCtxt}
    (hp : ∀ d w, p d = .ok w → Forward c w.value.2) {off ix : Nat} {ds : List Decoder} {w : Parsed}
    (h : Decoder.parallelLoop p off ix ds = .ok w) : Forward c w.value.2 := by
  induction ds generalizing ix with
  | nil => cases h
  | cons d ds ih =>
    simp only [Decoder.parallelLoop] at h
    split at h
    · next u hu => cases h; exact hp _ u hu
    · exact ih h
    · cases h
    · cases h

private theorem forward_match {p : List (String × Value) → Decoder → Outcome DecodeErr Parsed} {c : ReadCtxt}
    (hp : ∀ b d w, p b d = .ok w → Forward c w.value.2) {v : Value} {ix : Nat}
    {ds : List (Pattern × Decoder)} {w : Parsed} (h : Decoder.matchLoop p v ix ds = .ok w) :
    Forward c w.value.2 := by
  induction ds generalizing ix with
  | nil => cases h
  | cons d ds ih =>
    obtain ⟨q, d⟩ := d
    simp only [Decoder.matchLoop] at h
    split at h
    · obtain ⟨u, h1, h⟩ := Outcome.bind_eq_ok.1 h
      cases h; exact hp _ _ u h1
    · exact ih h

private theorem parse_forward (env : Env) (fuel : Nat) : ∀ (d : Decoder) (s : Scope Decoder) (c : ReadCtxt)
    (w : Parsed), Decoder.parse env fuel d s c = .ok w → Forward c w.value.2 := by
  induction fuel with
  | zero => intro d s c w h; cases h
  | succ n ih =>
    intro d s c w h
    cases d with
    | call k args views =>
      simp only [Decoder.parse] at h
      obtain ⟨_, _, h⟩ := Outcome.bind_eq_ok.1 h
      obtain ⟨_, _, h⟩ := Outcome.bind_eq_ok.1 h
      obtain ⟨_, _, h⟩ := Outcome.bind_eq_ok.1 h
      exact ih _ _ _ _ h
    | pos => simp only [Decoder.parse] at h; cases h; exact .refl _
    | fail => simp only [Decoder.parse] at h; cases h
    | phantom => simp only [Decoder.parse] at h; cases h; exact .refl _
    | liftedNone => simp only [Decoder.parse] at h; cases h; exact .refl _
    | endOfInput =>
      simp only [Decoder.parse] at h
      split at h
      · cases h; exact .refl _
      · cases h
    | align k =>
      simp only [Decoder.parse] at h
      split at h
      · cases h
      · obtain ⟨r, h1, h⟩ := Outcome.bind_eq_ok.1 h
        match r with
        | none => cases h
        | some (a, b) =>
          cases h
          obtain ⟨h2, _, rfl⟩ := Sound.splitAt_some (Outcome.ofPanicky_eq_ok.1 h1)
          exact .mk' (Nat.le_add_right _ _) h2
    | byte bs =>
      simp only [Decoder.parse] at h
      split at h
      · cases h
      · next b c1 hr =>
        split at h
        · cases h
          obtain ⟨h1, rfl⟩ := Sound.readByte_some hr
          exact .mk' (Nat.le_succ _) (List.getElem?_eq_some_iff.1 h1).1
        · cases h
    | skipRemainder =>
      simp only [Decoder.parse] at h; cases h
      exact ⟨rfl, fun hi => ⟨Nat.le_refl _, hi⟩⟩
    | variant l d =>
      simp only [Decoder.parse] at h
      obtain ⟨w1, h1, h⟩ := Outcome.bind_eq_ok.1 h
      cases h; exact ih _ _ _ w1 h1
    | liftedSome d =>
      simp only [Decoder.parse] at h
      obtain ⟨w1, h1, h⟩ := Outcome.bind_eq_ok.1 h
      cases h; exact ih _ _ _ w1 h1
    | branch t ds =>
      simp only [Decoder.parse] at h
      split at h
      · cases h
      · obtain ⟨d, _, h⟩ := Outcome.bind_eq_ok.1 h
        obtain ⟨w1, h1, h⟩ := Outcome.bind_eq_ok.1 h
        cases h; exact ih _ _ _ w1 h1
    | parallel ds =>
      simp only [Decoder.parse] at h
      exact forward_parallel (fun d w hw => ih _ _ _ _ hw) h
    | tuple ds =>
      simp only [Decoder.parse] at h
      obtain ⟨acc, h1, h⟩ := Outcome.bind_eq_ok.1 h
      cases h; exact forward_items (fun x c w hw => ih _ _ _ _ hw) h1
    | sequence ds =>
      simp only [Decoder.parse] at h
      obtain ⟨acc, h1, h⟩ := Outcome.bind_eq_ok.1 h
      cases h; exact forward_items (fun x c w hw => ih _ _ _ _ hw) h1
    | while_ t d =>
      simp only [Decoder.parse] at h
      obtain ⟨acc, h1, h⟩ := Outcome.bind_eq_ok.1 h
      cases h; exact forward_while (fun c w hw => ih _ _ _ _ hw) h1
    | until_ t d =>
      simp only [Decoder.parse] at h
      obtain ⟨acc, h1, h⟩ := Outcome.bind_eq_ok.1 h
      cases h; exact forward_until (fun c w hw => ih _ _ _ _ hw) h1
    | repeatCount e d =>
      simp only [Decoder.parse] at h
      obtain ⟨_, _, h⟩ := Outcome.bind_eq_ok.1 h
      obtain ⟨acc, h1, h⟩ := Outcome.bind_eq_ok.1 h
      cases h; exact forward_items (fun x c w hw => ih _ _ _ _ hw) h1
    | repeatUntilLast e d =>
      simp only [Decoder.parse] at h
      obtain ⟨acc, h1, h⟩ := Outcome.bind_eq_ok.1 h
      cases h; exact forward_untilDone (fun c w hw => ih _ _ _ _ hw) h1
    | repeatUntilSeq e d =>
      simp only [Decoder.parse] at h
      obtain ⟨acc, h1, h⟩ := Outcome.bind_eq_ok.1 h
      cases h; exact forward_untilDone (fun c w hw => ih _ _ _ _ hw) h1
    | accumUntil e1 e2 e3 d =>
      simp only [Decoder.parse] at h
      obtain ⟨_, _, h⟩ := Outcome.bind_eq_ok.1 h
      obtain ⟨⟨r, acc⟩, h1, h⟩ := Outcome.bind_eq_ok.1 h
      cases h; exact forward_accum (fun c w hw => ih _ _ _ _ hw) h1
    | repeatBetween t x y d =>
      simp only [Decoder.parse] at h
      obtain ⟨_, _, h⟩ := Outcome.bind_eq_ok.1 h
      obtain ⟨_, _, h⟩ := Outcome.bind_eq_ok.1 h
      obtain ⟨acc, h1, h⟩ := Outcome.bind_eq_ok.1 h
      cases h; exact forward_between (fun c w hw => ih _ _ _ _ hw) h1
    | forEach e l d =>
      simp only [Decoder.parse] at h
      obtain ⟨_, _, h⟩ := Outcome.bind_eq_ok.1 h
      obtain ⟨acc, h1, h⟩ := Outcome.bind_eq_ok.1 h
      cases h; exact forward_items (fun x c w hw => ih _ _ _ _ hw) h1
    | maybe e d =>
      simp only [Decoder.parse] at h
      obtain ⟨b, _, h⟩ := Outcome.bind_eq_ok.1 h
      cases b with
      | true =>
        obtain ⟨w1, h1, h⟩ := Outcome.bind_eq_ok.1 h
        cases h; exact ih _ _ _ w1 h1
      | false => cases h; exact .refl _
    | peek d =>
      simp only [Decoder.parse] at h
      obtain ⟨w1, h1, h⟩ := Outcome.bind_eq_ok.1 h
      cases h; exact .refl _
    | peekNot d =>
      simp only [Decoder.parse] at h
      split at h
      · cases h
      · cases h; exact .refl _
      · cases h
      · cases h
    | slice e d =>
      simp only [Decoder.parse] at h
      obtain ⟨k, _, h⟩ := Outcome.bind_eq_ok.1 h
      obtain ⟨r, h1, h⟩ := Outcome.bind_eq_ok.1 h
      match r with
      | none => cases h
      | some (a, b) =>
        obtain ⟨h2, _, rfl⟩ := Sound.splitAt_some (Outcome.ofPanicky_eq_ok.1 h1)
        obtain ⟨w1, _, h⟩ := Outcome.bind_eq_ok.1 h
        cases h
        exact .mk' (Nat.le_add_right _ _) h2
    | bits d =>
      simp only [Decoder.parse] at h
      obtain ⟨bytes, h2, h⟩ := Outcome.bind_eq_ok.1 h
      obtain ⟨w1, h3, h⟩ := Outcome.bind_eq_ok.1 h
      simp only [WithErr.joinO] at h
      obtain ⟨w2, h4, h⟩ := Outcome.bind_eq_ok.1 h
      cases h
      unfold Decoder.finishBits at h4
      obtain ⟨_, _, h4⟩ := Outcome.bind_eq_ok.1 h4
      obtain ⟨_, _, h4⟩ := Outcome.bind_eq_ok.1 h4
      split at h4
      · cases h4
      · obtain ⟨sp, h5, h4⟩ := Outcome.bind_eq_ok.1 h4
        match sp with
        | none => cases h4
        | some (a, b) =>
          cases h4
          obtain ⟨h6, _, rfl⟩ := Sound.splitAt_some (Outcome.ofPanicky_eq_ok.1 h5)
          exact .mk' (Nat.le_add_right _ _) h6
    | withRelativeOffset e1 e2 d =>
      simp only [Decoder.parse] at h
      obtain ⟨_, _, h⟩ := Outcome.bind_eq_ok.1 h
      obtain ⟨_, _, h⟩ := Outcome.bind_eq_ok.1 h
      obtain ⟨_, _, h⟩ := Outcome.bind_eq_ok.1 h
      split at h
      · cases h
      · obtain ⟨w1, _, h⟩ := Outcome.bind_eq_ok.1 h
        cases h; exact .refl _
    | map d e =>
      simp only [Decoder.parse] at h
      obtain ⟨w1, h1, h⟩ := Outcome.bind_eq_ok.1 h
      obtain ⟨_, _, h⟩ := Outcome.bind_eq_ok.1 h
      cases h; exact ih _ _ _ w1 h1
    | where_ d e st =>
      simp only [Decoder.parse] at h
      obtain ⟨w1, h1, h⟩ := Outcome.bind_eq_ok.1 h
      simp only [WithErr.joinO] at h
      obtain ⟨w2, h3, h⟩ := Outcome.bind_eq_ok.1 h
      cases h
      obtain ⟨b, _, h3⟩ := Outcome.bind_eq_ok.1 h3
      have := ih _ _ _ _ h1
      split at h3
      · cases h3; exact this
      · split at h3
        · cases h3
        · cases h3; exact this
    | compute e =>
      simp only [Decoder.parse] at h
      obtain ⟨_, _, h⟩ := Outcome.bind_eq_ok.1 h
      cases h; exact .refl _
    | let_ x e d =>
      simp only [Decoder.parse] at h
      obtain ⟨_, _, h⟩ := Outcome.bind_eq_ok.1 h
      exact ih _ _ _ _ h
    | letView x d => simp only [Decoder.parse] at h; exact ih _ _ _ _ h
    | match_ e ds =>
      simp only [Decoder.parse] at h
      obtain ⟨_, _, h⟩ := Outcome.bind_eq_ok.1 h
      exact forward_match (fun b d w hw => ih _ _ _ _ hw) h
    | dynamic x ls vs d =>
      simp only [Decoder.parse] at h
      obtain ⟨_, _, h⟩ := Outcome.bind_eq_ok.1 h
      obtain ⟨_, _, h⟩ := Outcome.bind_eq_ok.1 h
      split at h
      · exact ih _ _ _ _ h
      · cases h
      · cases h
      · cases h
    | apply x =>
      simp only [Decoder.parse] at h
      obtain ⟨_, _, h⟩ := Outcome.bind_eq_ok.1 h
      exact ih _ _ _ _ h
    | decodeBytes e d =>
      simp only [Decoder.parse] at h
      obtain ⟨_, _, h⟩ := Outcome.bind_eq_ok.1 h
      obtain ⟨_, _, h⟩ := Outcome.bind_eq_ok.1 h
      obtain ⟨w1, _, h⟩ := Outcome.bind_eq_ok.1 h
      simp only [WithErr.joinO] at h
      obtain ⟨w2, h3, h⟩ := Outcome.bind_eq_ok.1 h
      cases h
      split at h3 <;> · cases h3; exact .refl _
    | parseFromView v d =>
      simp only [Decoder.parse] at h
      obtain ⟨_, _, h⟩ := Outcome.bind_eq_ok.1 h
      obtain ⟨w1, _, h⟩ := Outcome.bind_eq_ok.1 h
      cases h; exact .refl _
    | letFormat d x e =>
      simp only [Decoder.parse] at h
      obtain ⟨w1, h1, h⟩ := Outcome.bind_eq_ok.1 h
      simp only [WithErr.joinO] at h
      obtain ⟨w2, h2, h⟩ := Outcome.bind_eq_ok.1 h
      cases h; exact (ih _ _ _ w1 h1).trans (ih _ _ _ w2 h2)
    | monadSeq d e =>
      simp only [Decoder.parse] at h
      obtain ⟨w1, h1, h⟩ := Outcome.bind_eq_ok.1 h
      simp only [WithErr.joinO] at h
      obtain ⟨w2, h2, h⟩ := Outcome.bind_eq_ok.1 h
      cases h; exact (ih _ _ _ w1 h1).trans (ih _ _ _ w2 h2)
    | captureBytes v e =>
      simp only [Decoder.parse] at h
      obtain ⟨_, _, h⟩ := Outcome.bind_eq_ok.1 h
      obtain ⟨_, _, h⟩ := Outcome.bind_eq_ok.1 h
      obtain ⟨_, _, h⟩ := Outcome.bind_eq_ok.1 h
      cases h; exact .refl _
    | readArray v e k =>
      simp only [Decoder.parse] at h
      obtain ⟨_, _, h⟩ := Outcome.bind_eq_ok.1 h
      obtain ⟨_, _, h⟩ := Outcome.bind_eq_ok.1 h
      obtain ⟨_, _, h⟩ := Outcome.bind_eq_ok.1 h
      cases h; exact .refl _
    | reifyView v =>
      simp only [Decoder.parse] at h
      obtain ⟨_, _, h⟩ := Outcome.bind_eq_ok.1 h
      cases h; exact .refl _
    | enforce d =>
      simp only [Decoder.parse] at h
      obtain ⟨w1, h1, h⟩ := Outcome.bind_eq_ok.1 h
      split at h
      · cases h; exact ih _ _ _ w1 h1
      · cases h
    | permit d e =>
      simp only [Decoder.parse] at h
      split at h
      · next w1 h1 => cases h; exact ih _ _ _ w1 h1
      · obtain ⟨_, _, h⟩ := Outcome.bind_eq_ok.1 h
        cases h; exact .refl _
      · cases h
      · cases h

/-- Decoding with any decoder, in any program and scope, from any position inside the input: on success
the remaining input is the same buffer, at a position that is neither before the start nor behind the end. -/
theorem C07_forward (env : Env) (fuel : Nat) (d : Decoder) (s : Scope Decoder) (c : ReadCtxt) (w : Parsed)
    (hc : c.offset ≤ c.input.length) (h : Decoder.parse env fuel d s c = .ok w) :
    w.value.2.input = c.input ∧ c.offset ≤ w.value.2.offset ∧ w.value.2.offset ≤ c.input.length := by
  have := parse_forward env fuel d s c w h
  have h2 := this.2 hc
  refine ⟨this.1, h2.2, ?_⟩
  rw [← this.1]; exact h2.1

/-- The same for a whole program. -/
theorem C07_run (env : Env) (fuel : Nat) (c : ReadCtxt) (w : Parsed) (hc : c.offset ≤ c.input.length)
    (h : Decoder.run env fuel c = .ok w) :
    w.value.2.input = c.input ∧ c.offset ≤ w.value.2.offset ∧ w.value.2.offset ≤ c.input.length := by
  obtain ⟨d, _, h⟩ := Outcome.bind_eq_ok.1 h
  exact C07_forward env fuel d _ c w hc h

example : ∃ env fuel d s c w, c.offset ≤ c.input.length ∧
    Decoder.parse env fuel d s c = .ok w ∧ w.value.2.offset = 2 ∧ c.offset = 1 :=
  ⟨⟨[], fun _ => .panic⟩, 2, .bits (.byte (ByteSet.fromIter [1])), .empty, ⟨[7, 5, 9], 1⟩, _, by decide, rfl, rfl, rfl⟩

end Doodle
