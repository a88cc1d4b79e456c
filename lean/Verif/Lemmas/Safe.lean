import Verif.Spec.Safe
import Verif.Lemmas.Sound
import Verif.Lemmas.Helper
import Verif.Props.Decode

/-! Decoding does not panic where every expression has a value. -/

namespace Doodle
namespace Grammar

section
variable {m : Module} {rej rej' : Format → Scope Format → ReadCtxt → Prop}

mutual
theorem Parses.mono (hr : ∀ f s c, rej f s c → rej' f s c) : ∀ {f s c v c' k}, Parses m rej f s c v c' k → Parses m rej' f s c v c' k
  | _, _, _, _, _, _, .itemVar h1 h2 h3 h4 =>
    .itemVar h1 h2 h3 (Parses.mono hr h4)
  | _, _, _, _, _, _, .endOfInput h => .endOfInput h
  | _, _, _, _, _, _, .align h1 h2 h3 h4 h5 => .align h1 h2 h3 h4 h5
  | _, _, _, _, _, _, .byte h1 h2 => .byte h1 h2
  | _, _, _, _, _, _, .variant h => .variant (Parses.mono hr h)
  | _, _, _, _, _, _, .union h1 h2 => .union h1 (Parses.mono hr h2)
  | _, _, _, _, _, _, .unionNondet h1 h2 h => .unionNondet h1 (fun j hj g hg => hr _ _ _ (h2 j hj g hg)) (Parses.mono hr h)
  | _, _, _, _, _, _, .tuple h => .tuple (ParsesFields.mono hr h)
  | _, _, _, _, _, _, .sequence h => .sequence (ParsesFields.mono hr h)
  | _, _, _, _, _, _, .repeat_ h => .repeat_ (ParsesMany.mono hr h)
  | _, _, _, _, _, _, .repeat1 h h1 => .repeat1 (ParsesMany.mono hr h) h1
  | _, _, _, _, _, _, .repeatCount h1 h h2 => .repeatCount h1 (ParsesMany.mono hr h) h2
  | _, _, _, _, _, _, .repeatBetween h1 h2 h h3 h4 => .repeatBetween h1 h2 (ParsesMany.mono hr h) h3 h4
  | _, _, _, _, _, _, .repeatUntilLast h h1 h2 => .repeatUntilLast (ParsesMany.mono hr h) h1 h2
  | _, _, _, _, _, _, .repeatUntilSeq h h1 h2 h3 => .repeatUntilSeq (ParsesMany.mono hr h) h1 h2 h3
  | _, _, _, _, _, _, .accumUntil h1 h h2 => .accumUntil h1 (ParsesMany.mono hr h) h2
  | _, _, _, _, _, _, .forEach h1 h => .forEach h1 (ParsesEach.mono hr h)
  | _, _, _, _, _, _, .maybe_some h1 h => .maybe_some h1 (Parses.mono hr h)
  | _, _, _, _, _, _, .maybe_none h => .maybe_none h
  | _, _, _, _, _, _, .peek h => .peek (Parses.mono hr h)
  | _, _, _, _, _, _, .peekNot h => .peekNot (hr _ _ _ h)
  | _, _, _, _, _, _, .slice h1 h2 h => .slice h1 h2 (Parses.mono hr h)
  | _, _, _, _, _, _, .bits h1 h => .bits h1 (Parses.mono hr h)
  | _, _, _, _, _, _, .withRelativeOffset h1 h2 h3 h => .withRelativeOffset h1 h2 h3 (Parses.mono hr h)
  | _, _, _, _, _, _, .map h h1 => .map (Parses.mono hr h) h1
  | _, _, _, _, _, _, .where_ h h1 => .where_ (Parses.mono hr h) h1
  | _, _, _, _, _, _, .where_lenient h h1 => .where_lenient (Parses.mono hr h) h1
  | _, _, _, _, _, _, .compute h => .compute h
  | _, _, _, _, _, _, .let_ h1 h => .let_ h1 (Parses.mono hr h)
  | _, _, _, _, _, _, .match_ h1 h2 h3 h4 h =>
    .match_ h1 h2 h3 h4 (Parses.mono hr h)
  | _, _, _, _, _, _, .dynamic h1 h2 h => .dynamic h1 h2 (Parses.mono hr h)
  | _, _, _, _, _, _, .apply h1 h => .apply h1 (Parses.mono hr h)
  | _, _, _, _, _, _, .pos => .pos
  | _, _, _, _, _, _, .skipRemainder => .skipRemainder
  | _, _, _, _, _, _, .decodeBytes h1 h2 h h3 => .decodeBytes h1 h2 (Parses.mono hr h) h3
  | _, _, _, _, _, _, .decodeBytes_trailing h1 h2 h h3 => .decodeBytes_trailing h1 h2 (Parses.mono hr h) h3
  | _, _, _, _, _, _, .letFormat h1 h2 =>
    .letFormat (Parses.mono hr h1) (Parses.mono hr h2)
  | _, _, _, _, _, _, .monadSeq h1 h2 =>
    .monadSeq (Parses.mono hr h1) (Parses.mono hr h2)
  | _, _, _, _, _, _, .hint h => .hint (Parses.mono hr h)
  | _, _, _, _, _, _, .liftedNone => .liftedNone
  | _, _, _, _, _, _, .liftedSome h => .liftedSome (Parses.mono hr h)
  | _, _, _, _, _, _, .letView h => .letView (Parses.mono hr h)
  | _, _, _, _, _, _, .captureBytes h1 h2 h3 => .captureBytes h1 h2 h3
  | _, _, _, _, _, _, .readArray h1 h2 h3 h4 => .readArray h1 h2 h3 h4
  | _, _, _, _, _, _, .reifyView h => .reifyView h
  | _, _, _, _, _, _, .parseFromView h1 h => .parseFromView h1 (Parses.mono hr h)
  | _, _, _, _, _, _, .phantom => .phantom
  | _, _, _, _, _, _, .enforce h => .enforce (Parses.mono hr h)
  | _, _, _, _, _, _, .permit h => .permit (Parses.mono hr h)
  | _, _, _, _, _, _, .permit_fallback h1 h2 => .permit_fallback (hr _ _ _ h1) h2

theorem ParsesFields.mono (hr : ∀ f s c, rej f s c → rej' f s c) : ∀ {fs s c vs c' k}, ParsesFields m rej fs s c vs c' k → ParsesFields m rej' fs s c vs c' k
  | _, _, _, _, _, _, .fnil => .fnil
  | _, _, _, _, _, _, .fcons h1 h2 =>
    .fcons (Parses.mono hr h1) (ParsesFields.mono hr h2)

theorem ParsesMany.mono (hr : ∀ f s c, rej f s c → rej' f s c) : ∀ {f s c vs c' k}, ParsesMany m rej f s c vs c' k → ParsesMany m rej' f s c vs c' k
  | _, _, _, _, _, _, .mnil => .mnil
  | _, _, _, _, _, _, .mcons h1 h2 => .mcons (Parses.mono hr h1) (ParsesMany.mono hr h2)

theorem ParsesEach.mono (hr : ∀ f s c, rej f s c → rej' f s c) : ∀ {l f s is c vs c' k}, ParsesEach m rej l f s is c vs c' k → ParsesEach m rej' l f s is c vs c' k
  | _, _, _, _, _, _, _, _, .enil => .enil
  | _, _, _, _, _, _, _, _, .econs h1 h2 => .econs (Parses.mono hr h1) (ParsesEach.mono hr h2)
end

theorem ParsesMany.snoc {f s c vs c' k v c'' k'} (h : ParsesMany m rej f s c vs c' k) (h' : Parses m rej f s c' v c'' k') :
    ∃ k'', ParsesMany m rej f s c (vs ++ [v]) c'' k'' := by
  induction vs generalizing c k with
  | nil => cases h; exact ⟨_, .mcons h' .mnil⟩
  | cons v vs ih =>
    cases h with
    | mcons h1 h2 =>
      obtain ⟨k'', h3⟩ := ih h2
      exact ⟨_, .mcons h1 h3⟩

theorem ParsesFields.snoc {f fs s c vs c' k v c'' k'} (h : ParsesFields m rej fs s c vs c' k) (h' : Parses m rej f s c' v c'' k') :
    ∃ k'', ParsesFields m rej (fs ++ [f]) s c (vs ++ [v]) c'' k'' := by
  induction fs generalizing c k vs with
  | nil => cases h; exact ⟨_, .fcons h' .fnil⟩
  | cons g fs ih =>
    cases h with
    | fcons h1 h2 =>
      obtain ⟨k'', h3⟩ := ih h2
      exact ⟨_, .fcons h1 h3⟩

theorem ParsesEach.snoc {l f i is s c vs c' k v c'' k'} (h : ParsesEach m rej l f s is c vs c' k)
    (h' : Parses m rej f (.single l i s) c' v c'' k') : ∃ k'', ParsesEach m rej l f s (is ++ [i]) c (vs ++ [v]) c'' k'' := by
  induction is generalizing c k vs with
  | nil => cases h; exact ⟨_, .econs h' .enil⟩
  | cons g fs ih =>
    cases h with
    | econs h1 h2 =>
      obtain ⟨k'', h3⟩ := ih h2
      exact ⟨_, .econs h1 h3⟩

theorem AccumAfter.snoc {update s a vs b v b'} (h : AccumAfter update s a vs b) (h' : Sends update s (.tuple [b, v]) b') :
    AccumAfter update s a (vs ++ [v]) b' := by
  induction h with
  | nil => exact .cons h' .nil
  | cons h1 _ ih => exact .cons h1 (ih h')
end

end Grammar

namespace SafeRun
open Grammar Sound

/-- the outcome is not a panic -/
def NP {ε α : Type} (x : Outcome ε α) : Prop := x ≠ .panic

theorem NP.ok {ε α : Type} (a : α) : NP (.ok a : Outcome ε α) := nofun
theorem NP.err {ε α : Type} (e : ε) : NP (.err e : Outcome ε α) := nofun

theorem NP.bind {ε α β : Type} {x : Outcome ε α} {g : α → Outcome ε β} (h : NP x) (h' : ∀ a, x = .ok a → NP (g a)) :
    NP (x >>= g) := by
  cases x with
  | ok a => exact h' a rfl
  | err e => exact nofun
  | panic => exact absurd rfl h
  | fuel => exact nofun

theorem NP.panicky {ε α β : Type} {x : Panicky α} {a : α} {g : α → Outcome ε β} (h : x = .ok a) (h' : NP (g a)) :
    NP (Outcome.ofPanicky x >>= g) := by
  rw [h]; exact h'

theorem split {c : ReadCtxt} {n : Nat} (h : c.offset + n < usizeCard) :
    c.splitAt n = .ok (if c.offset + n ≤ c.input.length then
      some (⟨c.input.take (c.offset + n), c.offset⟩, ⟨c.input, c.offset + n⟩) else none) := by
  unfold ReadCtxt.splitAt addUsize
  rw [if_pos h]
  dsimp only
  split <;> rfl

section
variable {R : Format → Decoder → Prop} {s : Scope Format} {s' : Scope Decoder}

theorem _root_.Doodle.ScopeRel.getDecoder' (h : ScopeRel R s s') {x : String} {f : Format} (hd : s.getDecoder x = some f) :
    ∃ d, s'.getDecoder x = some d ∧ R f d := by
  induction h with
  | empty => simp [Scope.getDecoder] at hd
  | multi _ ih => simp only [Scope.getDecoder] at hd ⊢; exact ih hd
  | single _ ih => simp only [Scope.getDecoder] at hd ⊢; exact ih hd
  | view _ ih => simp only [Scope.getDecoder] at hd ⊢; exact ih hd
  | decoder hr _ ih =>
    simp only [Scope.getDecoder] at hd ⊢
    split
    · next e => rw [if_pos e] at hd; cases hd; exact ⟨_, rfl, hr⟩
    · next e => rw [if_neg e] at hd; exact ih hd

theorem value (h : ScopeRel R s s') {e : Expr} {v : Value} (he : Denotes e s v) : e.evalValue s' = .ok v := by
  rw [h.evalValue]; exact he

theorem usize (h : ScopeRel R s s') {e : Expr} {n : Nat} (he : DenotesNat e s n) : Decoder.evalUsize e s' = .ok n := by
  obtain ⟨v, h1, h2⟩ := he
  exact Panicky.bind_eq_ok.2 ⟨v, value h h1, h2⟩

theorem bool (h : ScopeRel R s s') {e : Expr} {b : Bool} (he : DenotesBool e s b) : Decoder.evalBool e s' = .ok b :=
  Panicky.bind_eq_ok.2 ⟨_, value h he, rfl⟩

theorem lambda (h : ScopeRel R s s') {e : Expr} {x v : Value} (he : Sends e s x v) : e.evalLambda s' x = .ok v := by
  rw [h.evalLambda]; exact he

theorem tells (h : ScopeRel R s s') {e : Expr} {x : Value} (he : Tells e s x) : ∃ b, Decoder.lambdaBool e s' x = .ok b := by
  obtain ⟨b, hb⟩ := he
  exact ⟨b, Panicky.bind_eq_ok.2 ⟨_, lambda h hb, rfl⟩⟩

theorem items (h : ScopeRel R s s') {e : Expr} {vs : List Value} (he : DenotesItems e s vs) : Decoder.evalItems e s' = .ok vs := by
  obtain ⟨v, q, h1, h2, h3⟩ := he
  refine Panicky.bind_eq_ok.2 ⟨v, value h h1, Panicky.bind_eq_ok.2 ⟨q, Compiler.unwrap_eq_ok.2 h2, ?_⟩⟩
  rw [h3]

theorem bytes {vs : List Value} {bs : List UInt8} (h : AreBytes vs bs) : Decoder.bytesOf vs = .ok bs := by
  induction h with
  | nil => rfl
  | cons h1 _ ih => exact Panicky.bind_eq_ok.2 ⟨_, h1, Panicky.bind_eq_ok.2 ⟨_, ih, rfl⟩⟩

theorem view (h : ScopeRel R s s') {e : ViewExpr} (he : SafeView s e) : NP (Decoder.evalView s' e) := by
  induction he with
  | var h1 =>
    simp only [Decoder.evalView]
    rw [h.getView, h1]; exact nofun
  | @offset base e n _ h2 h3 ih =>
    obtain ⟨v, h4, h5⟩ := h2
    simp only [Decoder.evalView]
    refine .panicky (value h h4) (.panicky h5 (.bind ih fun c hc => .panicky (split (h3 c (viewAt h hc))) ?_))
    split <;> exact nofun

theorem args (h : ScopeRel R s s') {es : List (String × Expr)} (he : ∀ p ∈ es, ∃ v, Denotes p.2 s v) : NP (Decoder.evalArgs s' es) := by
  induction es with
  | nil => exact nofun
  | cons p es ih =>
    obtain ⟨v, hv⟩ := he p (.head _)
    exact .panicky (value h hv) (.bind (ih fun q hq => he q (.tail _ hq)) fun _ _ => .ok _)

theorem viewArgs (h : ScopeRel R s s') {es : List (String × ViewExpr)} (he : ∀ p ∈ es, SafeView s p.2) : NP (Decoder.evalViewArgs s' es) := by
  induction es with
  | nil => exact nofun
  | cons p es ih =>
    exact .bind (view h (he p (.head _))) fun _ _ => .bind (ih fun q hq => he q (.tail _ hq)) fun _ _ => .ok _
end

theorem capture {n : Nat} {c : ReadCtxt} {acc : List Value} : NP (Decoder.captureLoop n c acc) := by
  induction n generalizing c acc with
  | zero => exact nofun
  | succ n ih =>
    simp only [Decoder.captureLoop]
    split
    · exact nofun
    · exact ih

theorem fromBe_lt (l : List UInt8) : fromBeBytes l < 256 ^ l.length := by
  have : ∀ (l : List UInt8) (a : Nat), l.foldl (fun acc b => acc * 256 + b.toNat) a < (a + 1) * 256 ^ l.length := by
    intro l
    induction l with
    | nil => intro a; simp
    | cons b l ih =>
      intro a
      have h1 := ih (a * 256 + b.toNat)
      have hb := b.toNat_lt
      rw [List.foldl_cons, List.length_cons, Nat.pow_succ]
      refine Nat.lt_of_lt_of_le h1 ?_
      rw [Nat.mul_comm (256 ^ l.length), ← Nat.mul_assoc]
      exact Nat.mul_le_mul_right _ (by omega)
  have h := this l 0
  rwa [Nat.zero_add, Nat.one_mul] at h

theorem base {c : ReadCtxt} {kind : BaseKind} (h : kind.width = .b8 ∨ kind.be = true) : NP (Decoder.readBase c kind) := by
  obtain ⟨w, be⟩ := kind
  have wide : ∀ w : Num.BitWidth, w.bits % 8 = 0 → be = true → NP (if be = true then
      match c.readBe (w.bits / 8) with
      | none => .err (.overrun (w.bits / 8) c.offset)
      | some (n, buf') => do
        let v ← Outcome.ofPanicky (Value.mkNum (.fixed w) n)
        .ok (v, buf')
      else .panic : Outcome DecodeErr (Value × ReadCtxt)) := by
    intro w h8 hbe
    rw [if_pos hbe]
    split
    · exact nofun
    · next n buf' hr =>
      unfold ReadCtxt.readBe at hr
      split at hr
      · next hl =>
        cases hr
        have := fromBe_lt ((c.input.drop c.offset).take (w.bits / 8))
        rw [List.length_take, List.length_drop, Nat.min_eq_left (by omega)] at this
        have h2 : (256 : Nat) ^ (w.bits / 8) = 2 ^ w.bits := by
          rw [show (256 : Nat) = 2 ^ 8 from rfl, ← Nat.pow_mul]
          congr 1; omega
        rw [h2] at this
        refine .panicky (Helper.mkNum_eq this) (.ok _)
      · cases hr
  cases w with
  | b8 =>
    simp only [Decoder.readBase]
    split <;> exact nofun
  | b16 => exact wide .b16 rfl (h.resolve_left nofun)
  | b32 => exact wide .b32 rfl (h.resolve_left nofun)
  | b64 => exact wide .b64 rfl (h.resolve_left nofun)

theorem array {n : Nat} {kind : BaseKind} {c : ReadCtxt} {acc : List Value} (h : n ≠ 0 → kind.width = .b8 ∨ kind.be = true) :
    NP (Decoder.readArrayLoop kind n c acc) := by
  induction n generalizing c acc with
  | zero => exact nofun
  | succ n ih =>
    exact .bind (base (h (Nat.succ_ne_zero n))) fun _ _ => ih fun _ => h (Nat.succ_ne_zero n)

/-! ### loops -/

section
variable {m : Module} {f : Format} {s : Scope Format} {p : ReadCtxt → Outcome DecodeErr Parsed} {c0 : ReadCtxt}
  (hp : Decodes m anyRej f s p)
include hp

theorem whileLoop {t : MatchTree} (hn : ∀ vs c' k, ParsesMany m anyRej f s c0 vs c' k → NP (p c')) (n : Nat) :
    ∀ (acc : Decoder.Acc) (vs : List Value) (k : Nat), ParsesMany m anyRej f s c0 vs acc.value.2 k → NP (Decoder.whileLoop t p n acc) := by
  induction n with
  | zero => intro acc vs k _; exact nofun
  | succ n ih =>
    intro acc vs k h
    simp only [Decoder.whileLoop]
    split
    · exact nofun
    · refine .bind (hn _ _ _ h) fun w hw => ?_
      obtain ⟨k', h'⟩ := h.snoc (hp _ _ hw)
      exact ih _ _ _ h'
    · exact nofun

theorem untilLoop {t : MatchTree} (hn : ∀ vs c' k, ParsesMany m anyRej f s c0 vs c' k → NP (p c')) (n : Nat) :
    ∀ (acc : Decoder.Acc) (vs : List Value) (k : Nat), ParsesMany m anyRej f s c0 vs acc.value.2 k → NP (Decoder.untilLoop t p n acc) := by
  induction n with
  | zero => intro acc vs k _; exact nofun
  | succ n ih =>
    intro acc vs k h
    simp only [Decoder.untilLoop]
    refine .bind (hn _ _ _ h) fun w hw => ?_
    obtain ⟨k', h'⟩ := h.snoc (hp _ _ hw)
    split
    · exact nofun
    · exact nofun
    · exact ih _ _ _ h'

theorem betweenLoop {t : MatchTree} {max : Nat} {start : ReadCtxt}
    (hn : ∀ vs c' k, ParsesMany m anyRej f s c0 vs c' k → NP (p c')) (n : Nat) :
    ∀ (acc : Decoder.Acc) (vs : List Value) (k : Nat), ParsesMany m anyRej f s c0 vs acc.value.2 k →
      NP (Decoder.betweenLoop t 0 max start p n acc) := by
  induction n with
  | zero => intro acc vs k _; exact nofun
  | succ n ih =>
    intro acc vs k h
    simp only [Decoder.betweenLoop]
    split
    · exact nofun
    · split
      · rw [if_neg (Nat.not_lt_zero _)]; exact nofun
      · refine .bind (hn _ _ _ h) fun w hw => ?_
        obtain ⟨k', h'⟩ := h.snoc (hp _ _ hw)
        exact ih _ _ _ h'

theorem untilDoneLoop {done : Value → List Value → Panicky Bool} (hn : ∀ vs c' k, ParsesMany m anyRej f s c0 vs c' k → NP (p c'))
    (hd : ∀ vs v c' k, ParsesMany m anyRej f s c0 (vs ++ [v]) c' k → ∃ b, done v (vs ++ [v]) = .ok b) (n : Nat) :
    ∀ (acc : Decoder.Acc) (k : Nat), ParsesMany m anyRej f s c0 acc.value.1 acc.value.2 k →
      NP (Decoder.untilDoneLoop done p n acc) := by
  induction n with
  | zero => intro acc k _; exact nofun
  | succ n ih =>
    intro acc k h
    simp only [Decoder.untilDoneLoop]
    refine .bind (hn _ _ _ h) fun w hw => ?_
    obtain ⟨k', h'⟩ := h.snoc (hp _ _ hw)
    obtain ⟨b, hb⟩ := hd _ _ _ _ h'
    refine .panicky hb ?_
    split
    · exact nofun
    · exact ih _ _ h'

theorem countLoop {n : Nat} (hn : ∀ vs c' k, ParsesMany m anyRej f s c0 vs c' k → vs.length < n → NP (p c')) (j : Nat) :
    ∀ (acc : Decoder.Acc) (vs : List Value) (k : Nat), ParsesMany m anyRej f s c0 vs acc.value.2 k → vs.length + j = n →
      NP (Decoder.foldItems (fun (_ : Unit) c => p c) (List.replicate j ()) acc) := by
  induction j with
  | zero => intro acc vs k _ _; exact nofun
  | succ j ih =>
    intro acc vs k h hl
    rw [List.replicate_succ]
    simp only [Decoder.foldItems]
    refine .bind (hn _ _ _ h (by omega)) fun w hw => ?_
    obtain ⟨k', h'⟩ := h.snoc (hp _ _ hw)
    exact ih _ _ _ h' (by simp; omega)

theorem accumLoop {done : Value → List Value → Panicky Bool} {update : Expr} {a : Value} {R : Format → Decoder → Prop}
    {s' : Scope Decoder} (hs : ScopeRel R s s')
    (hd : ∀ vs c' k b, ParsesMany m anyRej f s c0 vs c' k → AccumAfter update s a vs b → ∃ x, done b vs = .ok x)
    (hn : ∀ vs c' k b, ParsesMany m anyRej f s c0 vs c' k → AccumAfter update s a vs b → NP (p c'))
    (hu : ∀ vs v c' k b, ParsesMany m anyRej f s c0 (vs ++ [v]) c' k → AccumAfter update s a vs b →
      ∃ b', Sends update s (.tuple [b, v]) b') (n : Nat) :
    ∀ (b : Value) (acc : Decoder.Acc) (k : Nat), ParsesMany m anyRej f s c0 acc.value.1 acc.value.2 k →
      AccumAfter update s a acc.value.1 b →
      NP (Decoder.accumLoop done (fun accum v => update.evalLambda s' (.tuple [accum, v])) p n b acc) := by
  induction n with
  | zero => intro b acc k _ _; exact nofun
  | succ n ih =>
    intro b acc k h ha
    simp only [Decoder.accumLoop]
    obtain ⟨x, hx⟩ := hd _ _ _ _ h ha
    refine .panicky hx ?_
    split
    · exact nofun
    · refine .bind (hn _ _ _ _ h ha) fun w hw => ?_
      obtain ⟨k', h'⟩ := h.snoc (hp _ _ hw)
      obtain ⟨b', hb'⟩ := hu _ _ _ _ _ h' ha
      exact .panicky (lambda hs hb') (ih _ _ _ h' (ha.snoc hb'))
end

theorem eachLoop {m : Module} {f : Format} {s : Scope Format} {l : String} {p : Value → ReadCtxt → Outcome DecodeErr Parsed}
    {c0 : ReadCtxt} {items : List Value} (hp : ∀ v, Decodes m anyRej f (.single l v s) (p v))
    (hn : ∀ before v after vs c' k, items = before ++ v :: after → ParsesEach m anyRej l f s before c0 vs c' k → NP (p v c'))
    (after : List Value) : ∀ (before : List Value) (acc : Decoder.Acc) (vs : List Value) (k : Nat), items = before ++ after →
      ParsesEach m anyRej l f s before c0 vs acc.value.2 k → NP (Decoder.foldItems p after acc) := by
  induction after with
  | nil => intro before acc vs k _ _; exact nofun
  | cons v after ih =>
    intro before acc vs k he h
    simp only [Decoder.foldItems]
    refine .bind (hn _ _ _ _ _ _ he h) fun w hw => ?_
    obtain ⟨k', h'⟩ := h.snoc (hp v _ _ hw)
    exact ih (before ++ [v]) _ _ _ (by rw [he]; simp) h'

theorem fieldsLoop {R : CRel} {m : Module} {s : Scope Format} {p : Decoder → ReadCtxt → Outcome DecodeErr Parsed} {c0 : ReadCtxt}
    (hp : ∀ f next d, Compiles R f next d → Decodes m anyRej f s (p d)) {all : List Format}
    (hn : ∀ (i : Nat) f vs c' k, all[i]? = some f → ParsesFields m anyRej (all.take i) s c0 vs c' k →
      ∀ next d, Compiles R f next d → NP (p d c'))
    (fs : List Format) : ∀ (before : List Format) (next : Next) (ds : List Decoder) (acc : Decoder.Acc) (vs : List Value) (k : Nat),
      CompilesFields R fs next ds → all = before ++ fs → ParsesFields m anyRej before s c0 vs acc.value.2 k →
      NP (Decoder.foldItems p ds acc) := by
  induction fs with
  | nil => intro before next ds acc vs k hc _ _; cases hc; exact nofun
  | cons f fs ih =>
    intro before next ds acc vs k hc he h
    cases hc with
    | fcons h1 h2 =>
      simp only [Decoder.foldItems]
      refine .bind (hn before.length f vs _ k ?_ ?_ _ _ h1) fun w hw => ?_
      · rw [he, List.getElem?_append_right (Nat.le_refl _), Nat.sub_self]; rfl
      · rw [he, List.take_left]; exact h
      · obtain ⟨k', h'⟩ := h.snoc (hp _ _ _ h1 _ _ hw)
        exact ih (before ++ [f]) _ _ _ _ _ h2 (by rw [he]; simp) h'

theorem parallel {R : CRel} {p : Decoder → Outcome DecodeErr Parsed} {off : Nat} {fs : List Format} {next : Next} {ds : List Decoder}
    (hc : CompilesAll R fs next ds) (h : ∀ f ∈ fs, ∀ d, Compiles R f next d → NP (p d)) (ix : Nat) :
    NP (Decoder.parallelLoop p off ix ds) := by
  induction fs generalizing ds ix with
  | nil => cases hc; exact nofun
  | cons f fs ih =>
    cases hc with
    | acons h1 h2 =>
      have := h f (.head _) _ h1
      simp only [Decoder.parallelLoop]
      split
      · exact nofun
      · exact ih h2 (fun g hg => h g (.tail _ hg)) _
      · next he => exact absurd he this
      · exact nofun

theorem matchLoop {R : CRel} {p : List (String × Value) → Decoder → Outcome DecodeErr Parsed} {head : Value}
    {fs : List (Pattern × Format)} {next : Next} {ds : List (Pattern × Decoder)} (hc : CompilesBranches R fs next ds)
    {i : Nat} {q : Pattern} {f : Format} {bs : List (String × Value)} (hi : fs[i]? = some (q, f)) (hq : head.matchesPat q = some bs)
    (hno : ∀ j < i, ∀ q g, fs[j]? = some (q, g) → head.matchesPat q = none) (h : ∀ d, Compiles R f next d → NP (p bs d)) (ix : Nat) :
    NP (Decoder.matchLoop p head ix ds) := by
  induction fs generalizing ds ix i with
  | nil => cases hi
  | cons g fs ih =>
    cases hc with
    | bcons h1 h2 =>
      simp only [Decoder.matchLoop]
      cases i with
      | zero =>
        cases hi
        rw [hq]
        exact .bind (h _ h1) fun _ _ => .ok _
      | succ i =>
        rw [hno 0 (Nat.succ_pos i) _ _ rfl]
        exact ih h2 hi (fun j hj q g hg => hno (j + 1) (Nat.succ_lt_succ hj) q g hg) _

theorem unhint {R : CRel} {m : Module} {codes : Format → Prop} {f0 : Format} {s : Scope Format} {c : ReadCtxt} {next : Next} {d : Decoder}
    (hs : Safe m codes f0 s c) (hc : Compiles R f0 next d) :
    ∃ f, Compiles R f next d ∧ (∀ g, f ≠ .hint g) ∧ Safe m codes f s c := by
  match f0 with
  | .hint f =>
    cases hc with
    | hint hc => cases hs with | hint hs => exact unhint hs hc
  | .itemVar .. | .fail | .endOfInput | .align .. | .byte .. | .variant .. | .union .. | .unionNondet ..
  | .tuple .. | .sequence .. | .repeat_ .. | .repeat1 .. | .repeatCount .. | .repeatBetween ..
  | .repeatUntilLast .. | .repeatUntilSeq .. | .accumUntil .. | .forEach .. | .maybe .. | .peek .. | .peekNot ..
  | .slice .. | .bits .. | .withRelativeOffset .. | .map .. | .where_ .. | .compute .. | .let_ .. | .match_ ..
  | .dynamic .. | .apply .. | .pos | .skipRemainder | .decodeBytes .. | .parseFromView .. | .letFormat ..
  | .monadSeq .. | .liftedNone | .liftedSome .. | .letView .. | .captureBytes .. | .readArray .. | .reifyView ..
  | .phantom .. | .enforce .. | .permit .. => exact ⟨_, hc, nofun, hs⟩

theorem all_get {R : CRel} {fs : List Format} {next : Next} {ds : List Decoder} (hc : CompilesAll R fs next ds) {i : Nat}
    (hi : i < fs.length) : ∃ f d, fs[i]? = some f ∧ ds[i]? = some d ∧ Compiles R f next d := by
  induction fs generalizing ds i with
  | nil => cases hi
  | cons f fs ih =>
    cases hc with
    | acons h1 h2 =>
      cases i with
      | zero => exact ⟨f, _, rfl, rfl, h1⟩
      | succ i => exact ih h2 (Nat.lt_of_succ_lt_succ hi)

theorem parse {R : CRel} {m : Module} {env : Env} {codes : Format → Prop} (hl : Linked R m env)
    (ht : ∀ fs next t, R.tree fs next t → ∀ c i, t.matches c = some i → i < fs.length)
    (hcodes : ∀ g, codes g → ∃ d, env.compileOne g = .ok (some d)) (fuel : Nat) :
    ∀ f next d s s' c, Compiles R f next d → ScopeRel (fun f d => ∃ next, Compiles R f next d) s s' →
      Safe m codes f s c → NP (Decoder.parse env fuel d s' c) := by
  induction fuel with
  | zero => intro f next d s s' c _ _ _; exact nofun
  | succ n ih =>
    intro f0 next d s s' c hc0 hs hf0
    obtain ⟨f, hc, hnh, hf⟩ := unhint hf0 hc0
    clear hf0 hc0
    have hdec : ∀ {f next d s s'}, Compiles R f next d →
        ScopeRel (fun f d => ∃ next, Compiles R f next d) s s' →
        Decodes m anyRej f s (fun c => Decoder.parse env n d s' c) :=
      fun h1 h2 c w h3 => (parse_sound hl n _ _ _ _ _ _ _ h1 h2 h3).mono fun _ _ _ _ => trivial
    cases hf with
    | hint _ => exact absurd rfl (hnh _)
    | itemVar h1 h2 h3 h4 =>
      cases hc with
      | itemVar g1 g2 g3 =>
        simp only [Decoder.parse]
        have := hl.item _ _ g1
        rw [h1] at this
        cases this
        obtain ⟨d, h5, h6⟩ := hl.calls _ _ _ _ g1 g3
        refine .bind (args hs h2) fun es hes => .bind (viewArgs hs h3) fun vs hvs => .panicky (Compiler.unwrap_eq_ok.2 h5) ?_
        exact ih _ _ _ _ _ _ h6 (.multi .empty) (h4 _ _ (argsAre hs hes) (viewsAre hs hvs))
    | fail => cases hc; exact nofun
    | endOfInput => cases hc; simp only [Decoder.parse]; split <;> exact nofun
    | @align k _ _ h1 h2 =>
      cases hc
      simp only [Decoder.parse]
      rw [if_neg (by omega)]
      refine .panicky (split ?_) ?_
      · have := Nat.mod_lt (k - c.offset % k) h1
        omega
      · split
        · exact nofun
        · exact nofun
    | byte =>
      cases hc
      simp only [Decoder.parse]
      split
      · exact nofun
      · split <;> exact nofun
    | variant h => cases hc with | variant g => exact .bind (ih _ _ _ _ _ _ g hs h) fun _ _ => .ok _
    | union h =>
      cases hc with
      | union g1 g2 =>
        simp only [Decoder.parse]
        split
        · exact nofun
        · next i hi =>
          obtain ⟨f, d, h1, h2, h3⟩ := all_get g1 (ht _ _ _ g2 _ _ hi)
          exact .panicky (Compiler.unwrap_eq_ok.2 h2) (.bind (ih _ _ _ _ _ _ h3 hs (h _ (List.mem_of_getElem? h1))) fun _ _ => .ok _)
    | unionNondet h =>
      cases hc with
      | unionNondet g => exact parallel g (fun f hf d hd => ih _ _ _ _ _ _ hd hs (h f hf)) 0
    | tuple h =>
      cases hc with
      | tuple g =>
        exact .bind (fieldsLoop (fun _ _ _ h => hdec h hs) (fun i f vs c' k hi hv nx d hd => ih _ _ _ _ _ _ hd hs (h i f vs c' k hi hv))
          _ [] _ _ _ [] 0 g rfl .fnil) fun _ _ => .ok _
    | sequence h =>
      cases hc with
      | sequence g =>
        exact .bind (fieldsLoop (fun _ _ _ h => hdec h hs) (fun i f vs c' k hi hv nx d hd => ih _ _ _ _ _ _ hd hs (h i f vs c' k hi hv))
          _ [] _ _ _ [] 0 g rfl .fnil) fun _ _ => .ok _
    | repeat_ h =>
      cases hc with
      | repeat_ _ g _ =>
        exact .bind (whileLoop (hdec g hs) (fun vs c' k hv => ih _ _ _ _ _ _ g hs (h vs c' k hv)) n _ [] 0 .mnil) fun _ _ => .ok _
    | repeat1 h =>
      cases hc with
      | repeat1 _ g _ =>
        exact .bind (untilLoop (hdec g hs) (fun vs c' k hv => ih _ _ _ _ _ _ g hs (h vs c' k hv)) n _ [] 0 .mnil) fun _ _ => .ok _
    | repeatCount h1 h =>
      cases hc with
      | repeatCount g =>
        refine .panicky (usize hs h1) (.bind ?_ fun _ _ => .ok _)
        exact countLoop (hdec g hs) (fun vs c' k hv hl => ih _ _ _ _ _ _ g hs (h vs c' k hv hl)) _ _ [] 0 .mnil (by simp)
    | repeatBetween h1 h2 h =>
      cases hc with
      | repeatBetween _ _ g _ =>
        refine .panicky (usize hs h1) (.panicky (usize hs h2) (.bind ?_ fun _ _ => .ok _))
        exact betweenLoop (hdec g hs) (fun vs c' k hv => ih _ _ _ _ _ _ g hs (h vs c' k hv)) n _ [] 0 .mnil
    | repeatUntilLast h1 h2 =>
      cases hc with
      | repeatUntilLast g =>
        exact .bind (untilDoneLoop (hdec g hs) (fun vs c' k hv => ih _ _ _ _ _ _ g hs (h1 vs c' k hv))
          (fun vs v c' k hv => tells hs (h2 vs v c' k hv)) n _ 0 .mnil) fun _ _ => .ok _
    | repeatUntilSeq h1 h2 =>
      cases hc with
      | repeatUntilSeq g =>
        exact .bind (untilDoneLoop (hdec g hs) (fun vs c' k hv => ih _ _ _ _ _ _ g hs (h1 vs c' k hv))
          (fun vs v c' k hv => tells hs (h2 _ c' k hv (by simp))) n _ 0 .mnil) fun _ _ => .ok _
    | accumUntil h1 h2 h3 h4 =>
      cases hc with
      | accumUntil g =>
        refine .panicky (value hs h1) (.bind ?_ fun _ _ => .ok _)
        exact accumLoop (hdec g hs) hs (fun vs c' k b hv ha => tells hs (h2 vs c' k b hv ha))
          (fun vs c' k b hv ha => ih _ _ _ _ _ _ g hs (h3 vs c' k b hv ha)) h4 n _ _ 0 .mnil .nil
    | forEach h1 h =>
      cases hc with
      | forEach g =>
        refine .panicky (items hs h1) (.bind ?_ fun _ _ => .ok _)
        exact eachLoop (fun v => hdec g (.single hs)) (fun b v a vs c' k he hv => ih _ _ _ _ _ _ g (.single hs) (h b v a vs c' k he hv))
          _ [] _ [] 0 rfl .enil
    | maybe h1 h =>
      cases hc with
      | maybe g =>
        refine .panicky (bool hs h1) ?_
        split
        · next hb => exact .bind (ih _ _ _ _ _ _ g hs (h hb)) fun _ _ => .ok _
        · exact nofun
    | peek h => cases hc with | peek g => exact .bind (ih _ _ _ _ _ _ g hs h) fun _ _ => .ok _
    | peekNot h =>
      cases hc with
      | peekNot _ g =>
        have := ih _ _ _ _ _ _ g hs h
        simp only [Decoder.parse]
        split
        · exact nofun
        · exact nofun
        · next he => exact absurd he this
        · exact nofun
    | slice h1 h2 h =>
      cases hc with
      | slice g =>
        refine .panicky (usize hs h1) (.panicky (split h2) ?_)
        split
        · exact nofun
        · next hd tl he =>
          split at he
          · next hle => cases he; exact .bind (ih _ _ _ _ _ _ g hs (h hle)) fun _ _ => .ok _
          · cases he
    | bits h1 h2 h =>
      cases hc with
      | bits g =>
        have hr : c.remaining = .ok (c.input.drop c.offset) := if_pos h1
        refine .panicky hr ?_
        rw [bitsOf_eq]
        refine .bind (ih _ _ _ _ _ _ g hs h) fun w hw => ?_
        obtain ⟨f1, _, f2⟩ := C07_forward env n _ s' _ w (Nat.zero_le _) hw
        have hb : (bitStream (c.input.drop c.offset)).length = 8 * (c.input.length - c.offset) := by
          rw [bitStream_length, List.length_drop]
        dsimp only [ReadCtxt.new] at f1 f2 hw
        refine .bind ?_ fun _ _ => .ok _
        unfold Decoder.finishBits
        refine .panicky (if_pos (by rw [f1]; exact f2)) (.panicky hr ?_)
        rw [f1, List.length_drop, List.length_drop, hb]
        rw [if_neg (by omega)]
        refine .panicky (split (by omega)) ?_
        split <;> exact nofun
    | withRelativeOffset h1 h2 h3 h =>
      cases hc with
      | withRelativeOffset g =>
        refine .panicky (usize hs h1) (.panicky (usize hs h2) (.panicky (if_pos h3) ?_))
        unfold ReadCtxt.seekTo
        split
        · exact nofun
        · next c' he =>
          split at he
          · next hle => cases he; exact .bind (ih _ _ _ _ _ _ g hs (h hle)) fun _ _ => .ok _
          · cases he
    | map h1 h2 =>
      cases hc with
      | map g =>
        refine .bind (ih _ _ _ _ _ _ g hs h1) fun w hw => ?_
        obtain ⟨x, hx⟩ := h2 _ _ _ (hdec g hs _ _ hw)
        exact .panicky (lambda hs hx) (.ok _)
    | where_ h1 h2 =>
      cases hc with
      | where_ g =>
        refine .bind (ih _ _ _ _ _ _ g hs h1) fun w hw => ?_
        obtain ⟨x, hx⟩ := tells hs (h2 _ _ _ (hdec g hs _ _ hw))
        refine .bind (.panicky hx ?_) fun _ _ => .ok _
        split
        · exact nofun
        · split <;> exact nofun
    | compute h => cases hc; exact .panicky (value hs h) (.ok _)
    | let_ h1 h => cases hc with | let_ g => exact .panicky (value hs h1) (ih _ _ _ _ _ _ g (.single hs) h)
    | match_ h1 h2 h3 h4 h =>
      cases hc with
      | match_ g =>
        refine .panicky (by rw [hs.eval]; exact h1) ?_
        exact matchLoop g h2 h3 h4 (fun d hd => ih _ _ _ _ _ _ hd (hs.withBindings _) h) 0
    | dynamic h1 h2 h3 h =>
      cases hc with
      | dynamic g =>
        obtain ⟨d, hd⟩ := hcodes _ h3
        refine .panicky (by rw [evalHuffman_eq hs]; exact h1) (.panicky h2 ?_)
        rw [hd]
        exact ih _ _ _ _ _ _ g (.decoder (hl.dyn _ _ hd) hs) h
    | apply h1 h =>
      cases hc
      obtain ⟨d, h2, nx, h3⟩ := hs.getDecoder' h1
      exact .panicky (Compiler.unwrap_eq_ok.2 h2) (ih _ _ _ _ _ _ h3 hs h)
    | pos => cases hc; exact nofun
    | skipRemainder => cases hc; exact nofun
    | decodeBytes h1 h2 h =>
      cases hc with
      | decodeBytes g =>
        refine .panicky (items hs h1) (.panicky (bytes h2) (.bind (ih _ _ _ _ _ _ g hs h) fun w hw => .bind ?_ fun _ _ => .ok _))
        dsimp only
        split <;> exact nofun
    | letFormat h1 h2 =>
      cases hc with
      | letFormat g1 g2 =>
        refine .bind (ih _ _ _ _ _ _ g1 hs h1) fun w hw => .bind ?_ fun _ _ => .ok _
        exact ih _ _ _ _ _ _ g2 (.single hs) (h2 _ _ _ (hdec g1 hs _ _ hw))
    | monadSeq h1 h2 =>
      cases hc with
      | monadSeq g1 g2 =>
        refine .bind (ih _ _ _ _ _ _ g1 hs h1) fun w hw => .bind ?_ fun _ _ => .ok _
        exact ih _ _ _ _ _ _ g2 hs (h2 _ _ _ (hdec g1 hs _ _ hw))
    | liftedNone => cases hc; exact nofun
    | liftedSome h => cases hc with | liftedSome g => exact .bind (ih _ _ _ _ _ _ g hs h) fun _ _ => .ok _
    | letView h => cases hc with | letView g => exact ih _ _ _ _ _ _ g (.view hs) h
    | captureBytes h1 h2 =>
      cases hc
      exact .panicky (usize hs h2) (.bind (view hs h1) fun _ _ => .bind capture fun _ _ => .ok _)
    | readArray h1 h2 h3 =>
      cases hc
      exact .panicky (usize hs h2) (.bind (view hs h1) fun _ _ => .bind (array h3) fun _ _ => .ok _)
    | reifyView h1 => cases hc; exact .bind (view hs h1) fun _ _ => .ok _
    | parseFromView h1 h =>
      cases hc with
      | parseFromView g => exact .bind (view hs h1) fun w hw => .bind (ih _ _ _ _ _ _ g hs (h w (viewAt hs hw))) fun _ _ => .ok _
    | phantom => cases hc; exact nofun
    | enforce h =>
      cases hc with
      | enforce g =>
        refine .bind (ih _ _ _ _ _ _ g hs h) fun w _ => ?_
        split <;> exact nofun
    | permit h1 h2 =>
      cases hc with
      | permit g =>
        have := ih _ _ _ _ _ _ g hs h1
        simp only [Decoder.parse]
        split
        · exact nofun
        · exact .panicky (value hs h2) (.ok _)
        · next he => exact absurd he this
        · exact nofun

end SafeRun
end Doodle
