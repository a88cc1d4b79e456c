import Verif.Lemmas.Grammar
import Verif.Lemmas.Compile
import Verif.Props.Shadow

/-! Soundness of the compiled decoder with respect to the grammar specification. -/

namespace Doodle

open Grammar

/-- Corresponding scopes: the same bindings, with formats in one and their decoders in the other. -/
inductive ScopeRel (R : Format → Decoder → Prop) : Scope Format → Scope Decoder → Prop
  | empty : ScopeRel R .empty .empty
  | multi {es p p'} : ScopeRel R p p' → ScopeRel R (.multi es p) (.multi es p')
  | single {x v p p'} : ScopeRel R p p' → ScopeRel R (.single x v p) (.single x v p')
  | decoder {x f d p p'} : R f d → ScopeRel R p p' → ScopeRel R (.decoder x f p) (.decoder x d p')
  | view {x c p p'} : ScopeRel R p p' → ScopeRel R (.view x c p) (.view x c p')

namespace ScopeRel
variable {R : Format → Decoder → Prop} {s : Scope Format} {s' : Scope Decoder}

theorem getValue (h : ScopeRel R s s') (x : String) : s'.getValue x = s.getValue x := by
  induction h with
  | empty => rfl
  | multi _ ih => simp only [Scope.getValue, ih]
  | single _ ih => simp only [Scope.getValue, ih]
  | decoder _ _ ih => simp only [Scope.getValue, ih]
  | view _ ih => simp only [Scope.getValue, ih]

theorem getView (h : ScopeRel R s s') (x : String) : s'.getView x = s.getView x := by
  induction h with
  | empty => rfl
  | multi _ ih => simp only [Scope.getView, ih]
  | single _ ih => simp only [Scope.getView, ih]
  | decoder _ _ ih => simp only [Scope.getView, ih]
  | view _ ih => simp only [Scope.getView, ih]

theorem getDecoder (h : ScopeRel R s s') {x : String} {d : Decoder} (hd : s'.getDecoder x = some d) :
    ∃ f, s.getDecoder x = some f ∧ R f d := by
  induction h with
  | empty => simp [Scope.getDecoder] at hd
  | multi _ ih => simp only [Scope.getDecoder] at hd ⊢; exact ih hd
  | single _ ih => simp only [Scope.getDecoder] at hd ⊢; exact ih hd
  | view _ ih => simp only [Scope.getDecoder] at hd ⊢; exact ih hd
  | decoder hr _ ih =>
    simp only [Scope.getDecoder] at hd ⊢
    split
    · next e => rw [if_pos e] at hd; cases hd; exact ⟨_, rfl, hr⟩
    · next e => rw [if_neg e] at hd; exact ih hd

theorem eval (h : ScopeRel R s s') (e : Expr) : e.eval s' = e.eval s :=
  eval_congr e s' s fun x _ => h.getValue x

theorem evalValue (h : ScopeRel R s s') (e : Expr) : e.evalValue s' = e.evalValue s := by
  simp only [Expr.evalValue, h.eval]

theorem evalLambda (h : ScopeRel R s s') (e : Expr) (v : Value) : e.evalLambda s' v = e.evalLambda s v :=
  evalLambda_congr e s' s (fun x _ => h.getValue x) v

theorem withBindings (h : ScopeRel R s s') (bs : List (String × Value)) :
    ScopeRel R (s.withBindings bs) (s'.withBindings bs) := .multi h

end ScopeRel

namespace Sound

variable {R : Format → Decoder → Prop} {s : Scope Format} {s' : Scope Decoder}

theorem denotes (h : ScopeRel R s s') {e : Expr} {v : Value} (he : e.evalValue s' = .ok v) : Denotes e s v := by
  unfold Denotes; rw [← h.evalValue]; exact he

theorem denotesNat (h : ScopeRel R s s') {e : Expr} {n : Nat} (he : Decoder.evalUsize e s' = .ok n) :
    DenotesNat e s n := by
  obtain ⟨v, h1, h2⟩ := Panicky.bind_eq_ok.1 he
  exact ⟨v, denotes h h1, h2⟩

theorem unwrapBool_eq {v : Value} {b : Bool} (h : v.unwrapBool = .ok b) : v = .bool b := by
  cases v <;> simp [Value.unwrapBool] at h
  rw [h]

theorem denotesBool (h : ScopeRel R s s') {e : Expr} {b : Bool} (he : Decoder.evalBool e s' = .ok b) :
    DenotesBool e s b := by
  obtain ⟨v, h1, h2⟩ := Panicky.bind_eq_ok.1 he
  rw [unwrapBool_eq h2] at h1
  exact denotes h h1

theorem sends (h : ScopeRel R s s') {e : Expr} {x v : Value} (he : e.evalLambda s' x = .ok v) :
    Sends e s x v := by
  unfold Sends; rw [← h.evalLambda]; exact he

theorem sendsBool (h : ScopeRel R s s') {e : Expr} {x : Value} {b : Bool}
    (he : Decoder.lambdaBool e s' x = .ok b) : Sends e s x (.bool b) := by
  obtain ⟨v, h1, h2⟩ := Panicky.bind_eq_ok.1 he
  rw [unwrapBool_eq h2] at h1
  exact sends h h1

theorem denotesItems (h : ScopeRel R s s') {e : Expr} {vs : List Value}
    (he : Decoder.evalItems e s' = .ok vs) : DenotesItems e s vs := by
  obtain ⟨v, h1, h2⟩ := Panicky.bind_eq_ok.1 he
  obtain ⟨q, h3, h4⟩ := Panicky.bind_eq_ok.1 h2
  cases h4
  exact ⟨v, q, denotes h h1, Compiler.unwrap_eq_ok.1 h3, rfl⟩

theorem areBytes {vs : List Value} {bs : List UInt8} (h : Decoder.bytesOf vs = .ok bs) : AreBytes vs bs := by
  induction vs generalizing bs with
  | nil => cases h; exact .nil
  | cons v vs ih =>
    simp only [Decoder.bytesOf] at h
    obtain ⟨b, h1, h⟩ := Panicky.bind_eq_ok.1 h
    obtain ⟨bs', h2, h⟩ := Panicky.bind_eq_ok.1 h
    cases h
    exact .cons h1 (ih h2)

theorem splitAt_some {c a b : ReadCtxt} {n : Nat} (h : c.splitAt n = .ok (some (a, b))) :
    c.offset + n ≤ c.input.length ∧ a = ⟨c.input.take (c.offset + n), c.offset⟩ ∧ b = ⟨c.input, c.offset + n⟩ := by
  unfold ReadCtxt.splitAt at h
  cases ha : addUsize c.offset n with
  | panic => rw [ha] at h; cases h
  | ok e =>
    rw [ha] at h
    have he : e = c.offset + n := by
      unfold addUsize at ha; split at ha <;> cases ha; rfl
    simp only [] at h
    split at h
    · next hl => subst he; cases h; exact ⟨hl, rfl, rfl⟩
    · cases h

theorem viewAt (h : ScopeRel R s s') {e : ViewExpr} {c : ReadCtxt}
    (he : Decoder.evalView s' e = .ok c) : ViewAt s e c := by
  induction e generalizing c with
  | var name =>
    simp only [Decoder.evalView] at he
    have := Compiler.unwrap_eq_ok.1 (Outcome.ofPanicky_eq_ok.1 he)
    rw [h.getView] at this
    exact .var this
  | offset base e ih =>
    simp only [Decoder.evalView] at he
    obtain ⟨v, h1, he⟩ := Outcome.bind_eq_ok.1 he
    obtain ⟨off, h2, he⟩ := Outcome.bind_eq_ok.1 he
    obtain ⟨b, h3, he⟩ := Outcome.bind_eq_ok.1 he
    obtain ⟨r, h4, he⟩ := Outcome.bind_eq_ok.1 he
    have h1 := Outcome.ofPanicky_eq_ok.1 h1
    have h2 := Outcome.ofPanicky_eq_ok.1 h2
    have h4 := Outcome.ofPanicky_eq_ok.1 h4
    match r with
    | none => cases he
    | some (a, w) =>
      cases he
      obtain ⟨h5, _, rfl⟩ := splitAt_some h4
      exact .offset (ih h3) ⟨v, denotes h h1, h2⟩ h5

theorem argsAre (h : ScopeRel R s s') {es : List (String × Expr)} {bs : List (String × ViewOrValue)}
    (he : Decoder.evalArgs s' es = .ok bs) : ArgsAre s es bs := by
  induction es generalizing bs with
  | nil => cases he; exact .nil
  | cons p es ih =>
    obtain ⟨x, e⟩ := p
    simp only [Decoder.evalArgs] at he
    obtain ⟨v, h1, he⟩ := Outcome.bind_eq_ok.1 he
    obtain ⟨r, h2, he⟩ := Outcome.bind_eq_ok.1 he
    cases he
    exact .cons (denotes h (Outcome.ofPanicky_eq_ok.1 h1)) (ih h2)

theorem viewsAre (h : ScopeRel R s s') {es : List (String × ViewExpr)} {bs : List (String × ViewOrValue)}
    (he : Decoder.evalViewArgs s' es = .ok bs) : ViewsAre s es bs := by
  induction es generalizing bs with
  | nil => cases he; exact .nil
  | cons p es ih =>
    obtain ⟨x, e⟩ := p
    simp only [Decoder.evalViewArgs] at he
    obtain ⟨v, h1, he⟩ := Outcome.bind_eq_ok.1 he
    obtain ⟨r, h2, he⟩ := Outcome.bind_eq_ok.1 he
    cases he
    exact .cons (viewAt h h1) (ih h2)

theorem evalHuffman_eq (h : ScopeRel R s s') (ls : Expr) (vs : Option Expr) :
    Decoder.evalHuffman s' ls vs = Decoder.evalHuffman s ls vs := by
  cases vs <;> simp only [Decoder.evalHuffman, h.eval]

/-- the two ways of writing the bit stream agree -/
theorem bitsOf_eq (l : List UInt8) : Decoder.bitsOf l = bitStream l := by
  induction l with
  | nil => rfl
  | cons b l ih =>
    have : Decoder.bitsOf (b :: l) = Decoder.bitsOfByte b ++ Decoder.bitsOf l := rfl
    rw [this, ih]
    unfold bitStream Decoder.bitsOfByte
    rw [List.length_cons, show 8 * (l.length + 1) = 8 + 8 * l.length by omega, List.range_add,
      List.map_append, List.map_map]
    congr 1
    apply List.map_congr_left
    intro j _
    simp only [Function.comp]
    rw [show (8 + j) / 8 = j / 8 + 1 by omega, show (8 + j) % 8 = j % 8 by omega]
    rfl

theorem readByte_some {c c' : ReadCtxt} {b : UInt8} (h : c.readByte = some (b, c')) :
    c.input[c.offset]? = some b ∧ c' = ⟨c.input, c.offset + 1⟩ :=
  ((ReadCtxt.C06_readByte c).1 b c').1 h

theorem finishBits_ok {c c' : ReadCtxt} {v : Value} {w : Parsed}
    (hc' : c'.input = bitStream (c.input.drop c.offset)) (h : Decoder.finishBits c (v, c') = .ok w) :
    c.offset ≤ c.input.length ∧ w = .new (v, ⟨c.input, c.offset + (c'.offset + 7) / 8⟩) := by
  unfold Decoder.finishBits at h
  obtain ⟨br, h1, h⟩ := Outcome.bind_eq_ok.1 h
  obtain ⟨ir, h2, h⟩ := Outcome.bind_eq_ok.1 h
  have h1 := Outcome.ofPanicky_eq_ok.1 h1
  have h2 := Outcome.ofPanicky_eq_ok.1 h2
  unfold ReadCtxt.remaining at h1 h2
  split at h1
  · next i1 =>
    split at h2
    · next i2 =>
      cases h1; cases h2
      split at h
      · cases h
      · obtain ⟨sp, h3, h⟩ := Outcome.bind_eq_ok.1 h
        have h3 := Outcome.ofPanicky_eq_ok.1 h3
        match sp with
        | none => cases h
        | some (a, b) =>
          cases h
          obtain ⟨_, _, rfl⟩ := splitAt_some h3
          refine ⟨i2, ?_⟩
          have hl : c'.input.length = 8 * (c.input.length - c.offset) := by rw [hc', bitStream_length]; simp
          congr 4
          simp only [List.length_drop]
          simp only [] at i1
          omega
    · cases h2
  · cases h1

theorem captureLoop_ok {n : Nat} {c : ReadCtxt} {acc vs : List Value}
    (h : Decoder.captureLoop n c acc = .ok vs) :
    (∀ i < n, c.offset + i < c.input.length) ∧
    vs = acc ++ ((c.input.drop c.offset).take n).map Value.u8 := by
  induction n generalizing c acc with
  | zero => simp only [Decoder.captureLoop] at h; cases h; simp
  | succ n ih =>
    simp only [Decoder.captureLoop] at h
    cases hr : c.readByte with
    | none => rw [hr] at h; cases h
    | some p =>
      obtain ⟨b, c1⟩ := p
      rw [hr] at h
      obtain ⟨h1, rfl⟩ := readByte_some hr
      obtain ⟨h2, h3⟩ := ih h
      have hlt := (List.getElem?_eq_some_iff.1 h1).1
      have hb := (List.getElem?_eq_some_iff.1 h1).2
      constructor
      · intro i hi
        cases i with
        | zero => simpa using hlt
        | succ i => have := h2 i (by omega); simp only [] at this; omega
      · rw [h3]
        simp only []
        rw [List.drop_eq_getElem_cons hlt, List.take_succ_cons, List.map_cons, hb, List.append_assoc]
        rfl

theorem arrayItem_shift (c : ReadCtxt) (w : Num.BitWidth) (i : Nat) :
    arrayItem ⟨c.input, c.offset + w.bits / 8⟩ w i = arrayItem c w (i + 1) := by
  unfold arrayItem
  simp only []
  rw [show c.offset + w.bits / 8 + i * (w.bits / 8) = c.offset + (i + 1) * (w.bits / 8) by
    rw [Nat.add_mul]; omega]

theorem readBase_ok {c c' : ReadCtxt} {kind : BaseKind} {v : Value}
    (h : Decoder.readBase c kind = .ok (v, c')) :
    c.offset + kind.width.bits / 8 ≤ c.input.length ∧ (kind.width = .b8 ∨ kind.be = true) ∧
    v = arrayItem c kind.width 0 ∧ c' = ⟨c.input, c.offset + kind.width.bits / 8⟩ := by
  obtain ⟨w, be⟩ := kind
  have wide : ∀ w, (if be = true then
      match c.readBe (w.bits / 8) with
      | none => .err (.overrun (w.bits / 8) c.offset)
      | some (n, buf') => do
        let v ← Outcome.ofPanicky (Value.mkNum (.fixed w) n)
        .ok (v, buf')
      else .panic : Outcome DecodeErr (Value × ReadCtxt)) = .ok (v, c') →
      c.offset + w.bits / 8 ≤ c.input.length ∧ (w = .b8 ∨ be = true) ∧
      v = arrayItem c w 0 ∧ c' = ⟨c.input, c.offset + w.bits / 8⟩ := by
    intro w h
    split at h
    · next hbe =>
      cases hr : c.readBe (w.bits / 8) with
      | none => rw [hr] at h; cases h
      | some p =>
        obtain ⟨n, c1⟩ := p
        rw [hr] at h
        simp only [] at h
        obtain ⟨u, h1, h⟩ := Outcome.bind_eq_ok.1 h
        cases h
        have h1 := Outcome.ofPanicky_eq_ok.1 h1
        unfold ReadCtxt.readBe at hr
        split at hr
        · next hle =>
          cases hr
          refine ⟨hle, .inr hbe, ?_, rfl⟩
          unfold Value.mkNum at h1
          split at h1
          · next hn =>
            cases h1
            unfold arrayItem
            congr 1
            apply Fin.ext
            simp only [Fin.ofNat]
            rw [Nat.zero_mul, Nat.add_zero, Nat.mod_eq_of_lt hn]
          · cases h1
        · cases hr
    · cases h
  cases w with
  | b8 =>
    simp only [Decoder.readBase] at h
    cases hr : c.readByte with
    | none => rw [hr] at h; cases h
    | some p =>
      obtain ⟨b, c1⟩ := p
      rw [hr] at h
      cases h
      obtain ⟨h1, rfl⟩ := readByte_some hr
      have hlt := (List.getElem?_eq_some_iff.1 h1).1
      have hb := (List.getElem?_eq_some_iff.1 h1).2
      refine ⟨by simp [Num.BitWidth.bits]; omega, .inl rfl, ?_, by simp [Num.BitWidth.bits]⟩
      unfold arrayItem Value.u8
      congr 1
      apply Fin.ext
      simp only [Fin.ofNat, Num.BitWidth.bits, Nat.zero_mul, Nat.add_zero]
      rw [List.drop_eq_getElem_cons hlt, hb]
      simp only [fromBeBytes, List.take_succ_cons, List.take_zero, List.foldl_cons, List.foldl_nil]
      rw [Nat.zero_mul, Nat.zero_add]
      exact (Nat.mod_eq_of_lt b.toNat_lt).symm
  | b16 => exact wide _ h
  | b32 => exact wide _ h
  | b64 => exact wide _ h

theorem readArrayLoop_ok {kind : BaseKind} {n : Nat} {c : ReadCtxt} {acc vs : List Value}
    (h : Decoder.readArrayLoop kind n c acc = .ok vs) :
    (∀ i < n, c.offset + (i + 1) * (kind.width.bits / 8) ≤ c.input.length) ∧
    (n ≠ 0 → kind.width = .b8 ∨ kind.be = true) ∧
    vs = acc ++ (List.range n).map (arrayItem c kind.width) := by
  induction n generalizing c acc with
  | zero => simp only [Decoder.readArrayLoop] at h; cases h; simp
  | succ n ih =>
    simp only [Decoder.readArrayLoop] at h
    obtain ⟨⟨v, c1⟩, h1, h⟩ := Outcome.bind_eq_ok.1 h
    obtain ⟨h2, h3, rfl, rfl⟩ := readBase_ok h1
    obtain ⟨h4, _, h5⟩ := ih h
    refine ⟨?_, fun _ => h3, ?_⟩
    · intro i hi
      cases i with
      | zero => simpa using h2
      | succ i =>
        have := h4 i (by omega)
        simp only [] at this
        rw [Nat.add_mul (i + 1)]; omega
    · rw [h5, List.append_assoc, List.range_succ_eq_map, List.map_cons, List.map_map]
      simp only [List.singleton_append]
      congr 2
      apply List.map_congr_left
      intro i _
      exact arrayItem_shift c kind.width i

/-! The loops of the interpreter. -/

variable {m : Module} {rej : Format → Scope Format → ReadCtxt → Prop}

/-- `p` decodes `f` in scope `s` -/
def Decodes (m : Module) (rej : Format → Scope Format → ReadCtxt → Prop) (f : Format) (s : Scope Format)
    (p : ReadCtxt → Outcome DecodeErr Parsed) : Prop :=
  ∀ c w, p c = .ok w → Parses m rej f s c w.value.1 w.value.2 w.errs.length

/-- the loop has added `vs` to the accumulator -/
def Added (acc acc' : Decoder.Acc) (vs : List Value) (k : Nat) : Prop :=
  acc'.value.1 = acc.value.1 ++ vs ∧ acc'.errs.length = k + acc.errs.length

theorem Added.cons {acc acc' : Decoder.Acc} {w : Parsed} {vs : List Value} {k : Nat}
    (h : Added (Decoder.push acc w) acc' vs k) : Added acc acc' (w.value.1 :: vs) (w.errs.length + k) := by
  obtain ⟨h1, h2⟩ := h
  refine ⟨by rw [h1]; simp [Decoder.push], ?_⟩
  rw [h2]; simp [Decoder.push]; omega

theorem whileLoop_ok {t : MatchTree} {p} {f : Format} (hp : Decodes m rej f s p) {n : Nat}
    {acc acc' : Decoder.Acc} (h : Decoder.whileLoop t p n acc = .ok acc') :
    ∃ vs k, Added acc acc' vs k ∧ ParsesMany m rej f s acc.value.2 vs acc'.value.2 k := by
  induction n generalizing acc with
  | zero => cases h
  | succ n ih =>
    simp only [Decoder.whileLoop] at h
    split at h
    · cases h
    · obtain ⟨w, h1, h⟩ := Outcome.bind_eq_ok.1 h
      obtain ⟨vs, k, h2, h3⟩ := ih h
      exact ⟨_, _, h2.cons, .mcons (hp _ _ h1) h3⟩
    · cases h; exact ⟨[], 0, ⟨by simp, by simp⟩, .mnil⟩

theorem untilLoop_ok {t : MatchTree} {p} {f : Format} (hp : Decodes m rej f s p) {n : Nat}
    {acc acc' : Decoder.Acc} (h : Decoder.untilLoop t p n acc = .ok acc') :
    ∃ vs k, Added acc acc' vs k ∧ ParsesMany m rej f s acc.value.2 vs acc'.value.2 k ∧ vs ≠ [] := by
  induction n generalizing acc with
  | zero => cases h
  | succ n ih =>
    simp only [Decoder.untilLoop] at h
    obtain ⟨w, h1, h⟩ := Outcome.bind_eq_ok.1 h
    split at h
    · cases h
    · cases h
      exact ⟨[w.value.1], w.errs.length + 0, ⟨by simp [Decoder.push], by simp [Decoder.push]⟩,
        .mcons (hp _ _ h1) .mnil, by simp⟩
    · obtain ⟨vs, k, h2, h3, _⟩ := ih h
      exact ⟨_, _, h2.cons, .mcons (hp _ _ h1) h3, by simp⟩

theorem betweenLoop_ok {t : MatchTree} {min max : Nat} {start : ReadCtxt} {p} {f : Format}
    (hp : Decodes m rej f s p) {n : Nat} {acc acc' : Decoder.Acc} (hle : acc.value.1.length ≤ max)
    (h : Decoder.betweenLoop t min max start p n acc = .ok acc') :
    ∃ vs k, Added acc acc' vs k ∧ ParsesMany m rej f s acc.value.2 vs acc'.value.2 k ∧
      min ≤ acc'.value.1.length ∧ acc'.value.1.length ≤ max := by
  induction n generalizing acc with
  | zero => cases h
  | succ n ih =>
    simp only [Decoder.betweenLoop] at h
    split at h
    · cases h
    · split at h
      · split at h
        · cases h
        · next hmin => cases h; exact ⟨[], 0, ⟨by simp, by simp⟩, .mnil, by omega, hle⟩
      · next hne =>
        obtain ⟨w, h1, h⟩ := Outcome.bind_eq_ok.1 h
        obtain ⟨vs, k, h2, h3, h4⟩ := ih (by
          simp only [Decoder.push, List.length_append, List.length_cons, List.length_nil]; omega) h
        exact ⟨_, _, h2.cons, .mcons (hp _ _ h1) h3, h4⟩

theorem untilDoneLoop_ok {done : Value → List Value → Panicky Bool} {p} {f : Format}
    (hp : Decodes m rej f s p) {n : Nat} {acc acc' : Decoder.Acc}
    (h : Decoder.untilDoneLoop done p n acc = .ok acc') :
    ∃ init last k, Added acc acc' (init ++ [last]) k ∧
      ParsesMany m rej f s acc.value.2 (init ++ [last]) acc'.value.2 k ∧
      done last (acc.value.1 ++ init ++ [last]) = .ok true ∧
      ∀ i x, init[i]? = some x → done x (acc.value.1 ++ init.take (i + 1)) = .ok false := by
  induction n generalizing acc with
  | zero => cases h
  | succ n ih =>
    simp only [Decoder.untilDoneLoop] at h
    obtain ⟨w, h1, h⟩ := Outcome.bind_eq_ok.1 h
    obtain ⟨d, h2, h⟩ := Outcome.bind_eq_ok.1 h
    have h2 := Outcome.ofPanicky_eq_ok.1 h2
    cases d with
    | true =>
      cases h
      exact ⟨[], w.value.1, w.errs.length + 0, ⟨by simp [Decoder.push], by simp [Decoder.push]⟩,
        .mcons (hp _ _ h1) .mnil, by simpa using h2, by simp⟩
    | false =>
      obtain ⟨init, last, k, h3, h4, h5, h6⟩ := ih h
      refine ⟨w.value.1 :: init, last, _, h3.cons, .mcons (hp _ _ h1) h4, ?_, ?_⟩
      · simpa [Decoder.push] using h5
      · intro i x hx
        cases i with
        | zero => simp at hx; subst hx; simpa using h2
        | succ i =>
          have := h6 i x (by simpa using hx)
          simpa [Decoder.push] using this

theorem accumLoop_ok {R : Format → Decoder → Prop} {s' : Scope Decoder} (hs : ScopeRel R s s')
    {done update : Expr} {p} {f : Format} (hp : Decodes m rej f s p) {n : Nat} {a r : Value}
    {acc acc' : Decoder.Acc}
    (h : Decoder.accumLoop (fun accum vs => Decoder.lambdaBool done s' (.tuple [accum, .seq (.strict vs)]))
        (fun accum v => update.evalLambda s' (.tuple [accum, v])) p n a acc = .ok (r, acc')) :
    ∃ vs k, Added acc acc' vs k ∧ ParsesMany m rej f s acc.value.2 vs acc'.value.2 k ∧
      AccumTo done update s a acc.value.1 vs r := by
  induction n generalizing a acc with
  | zero => cases h
  | succ n ih =>
    simp only [Decoder.accumLoop] at h
    obtain ⟨d, h1, h⟩ := Outcome.bind_eq_ok.1 h
    have h1 := sendsBool hs (Outcome.ofPanicky_eq_ok.1 h1)
    cases d with
    | true => cases h; exact ⟨[], 0, ⟨by simp, by simp⟩, .mnil, .stop h1⟩
    | false =>
      obtain ⟨w, h2, h⟩ := Outcome.bind_eq_ok.1 h
      obtain ⟨a', h3, h⟩ := Outcome.bind_eq_ok.1 h
      have h3 := sends hs (Outcome.ofPanicky_eq_ok.1 h3)
      obtain ⟨vs, k, h4, h5, h6⟩ := ih h
      exact ⟨_, _, h4.cons, .mcons (hp _ _ h2) h5, .step h1 h3 h6⟩

theorem foldMany_ok {p : ReadCtxt → Outcome DecodeErr Parsed} {f : Format} (hp : Decodes m rej f s p) {n : Nat}
    {acc acc' : Decoder.Acc}
    (h : Decoder.foldItems (fun (_ : Unit) c => p c) (List.replicate n ()) acc = .ok acc') :
    ∃ vs k, Added acc acc' vs k ∧ ParsesMany m rej f s acc.value.2 vs acc'.value.2 k ∧ vs.length = n := by
  induction n generalizing acc with
  | zero => cases h; exact ⟨[], 0, ⟨by simp, by simp⟩, .mnil, rfl⟩
  | succ n ih =>
    simp only [List.replicate_succ, Decoder.foldItems] at h
    obtain ⟨w, h1, h⟩ := Outcome.bind_eq_ok.1 h
    obtain ⟨vs, k, h2, h3, h4⟩ := ih h
    exact ⟨_, _, h2.cons, .mcons (hp _ _ h1) h3, by simp [h4]⟩

theorem foldEach_ok {p : Value → ReadCtxt → Outcome DecodeErr Parsed} {l : String} {f : Format}
    (hp : ∀ v, Decodes m rej f (.single l v s) (p v)) {items : List Value}
    {acc acc' : Decoder.Acc} (h : Decoder.foldItems p items acc = .ok acc') :
    ∃ vs k, Added acc acc' vs k ∧ ParsesEach m rej l f s items acc.value.2 vs acc'.value.2 k := by
  induction items generalizing acc with
  | nil => cases h; exact ⟨[], 0, ⟨by simp, by simp⟩, .enil⟩
  | cons v items ih =>
    simp only [Decoder.foldItems] at h
    obtain ⟨w, h1, h⟩ := Outcome.bind_eq_ok.1 h
    obtain ⟨vs, k, h2, h3⟩ := ih h
    exact ⟨_, _, h2.cons, .econs (hp v _ _ h1) h3⟩

theorem foldFields_ok {R : CRel} {p : Decoder → ReadCtxt → Outcome DecodeErr Parsed}
    (hp : ∀ f next d, Compiles R f next d → Decodes m rej f s (p d)) {fs : List Format} {next : Next}
    {ds : List Decoder} (hc : CompilesFields R fs next ds) {acc acc' : Decoder.Acc}
    (h : Decoder.foldItems p ds acc = .ok acc') :
    ∃ vs k, Added acc acc' vs k ∧ ParsesFields m rej fs s acc.value.2 vs acc'.value.2 k := by
  induction fs generalizing ds acc with
  | nil => cases hc; cases h; exact ⟨[], 0, ⟨by simp, by simp⟩, .fnil⟩
  | cons f fs ih =>
    cases hc with
    | fcons h1 h2 =>
      simp only [Decoder.foldItems] at h
      obtain ⟨w, h3, h⟩ := Outcome.bind_eq_ok.1 h
      obtain ⟨vs, k, h4, h5⟩ := ih h2 h
      exact ⟨_, _, h4.cons, .fcons (hp _ _ _ h1 _ _ h3) h5⟩

theorem CompilesAll.get {R : CRel} {fs : List Format} {next : Next} {ds : List Decoder}
    (hc : CompilesAll R fs next ds) {i : Nat} {d : Decoder} (hd : ds[i]? = some d) :
    ∃ f, fs[i]? = some f ∧ Compiles R f next d := by
  induction fs generalizing ds i with
  | nil => cases hc; simp at hd
  | cons f fs ih =>
    cases hc with
    | acons h1 h2 =>
      cases i with
      | zero => simp at hd; subst hd; exact ⟨f, rfl, h1⟩
      | succ i => exact ih h2 (by simpa using hd)

theorem parallelLoop_ok {R : CRel} {p : Decoder → Outcome DecodeErr Parsed} {off ix : Nat}
    {fs : List Format} {next : Next} {ds : List Decoder} (hc : CompilesAll R fs next ds) {w : Parsed}
    (h : Decoder.parallelLoop p off ix ds = .ok w) :
    ∃ i d f u, ds[i]? = some d ∧ fs[i]? = some f ∧ Compiles R f next d ∧ p d = .ok u ∧
      w = u.map (fun r => (.branch (ix + i) r.1, r.2)) ∧
      ∀ j < i, ∀ g, fs[j]? = some g → ∃ e d', Compiles R g next d' ∧ p d' = .err e := by
  induction fs generalizing ds ix with
  | nil => cases hc; cases h
  | cons f fs ih =>
    cases hc with
    | @acons _ _ _ d ds h1 h2 =>
      simp only [Decoder.parallelLoop] at h
      cases hd : p d with
      | ok u =>
        rw [hd] at h
        cases h
        exact ⟨0, d, f, u, rfl, rfl, h1, hd, by simp, by simp⟩
      | err e =>
        rw [hd] at h
        obtain ⟨i, d', f', u, g1, g2, g3, g4, g5, g6⟩ := ih h2 h
        refine ⟨i + 1, d', f', u, by simpa using g1, by simpa using g2, g3, g4, ?_, ?_⟩
        · rw [g5, show ix + 1 + i = ix + (i + 1) by omega]
        · intro j hj g hg
          cases j with
          | zero => simp at hg; subst hg; exact ⟨e, d, h1, hd⟩
          | succ j => exact g6 j (by omega) g (by simpa using hg)
      | panic => rw [hd] at h; cases h
      | fuel => rw [hd] at h; cases h

theorem matchLoop_ok {R : CRel} {p : List (String × Value) → Decoder → Outcome DecodeErr Parsed} {ix : Nat}
    {fs : List (Pattern × Format)} {next : Next} {ds : List (Pattern × Decoder)}
    (hc : CompilesBranches R fs next ds) {head : Value} {w : Parsed}
    (h : Decoder.matchLoop p head ix ds = .ok w) :
    ∃ i pat f bs d u, fs[i]? = some (pat, f) ∧ Compiles R f next d ∧ head.matchesPat pat = some bs ∧
      p bs d = .ok u ∧ w = u.map (fun r => (.branch (ix + i) r.1, r.2)) ∧
      ∀ j < i, ∀ q g, fs[j]? = some (q, g) → head.matchesPat q = none := by
  induction fs generalizing ds ix with
  | nil => cases hc; cases h
  | cons pf fs ih =>
    cases hc with
    | @bcons q g _ _ d ds h1 h2 =>
      simp only [Decoder.matchLoop] at h
      cases hm : head.matchesPat q with
      | some bs =>
        rw [hm] at h
        obtain ⟨u, h3, h⟩ := Outcome.bind_eq_ok.1 h
        cases h
        exact ⟨0, q, g, bs, d, u, rfl, h1, hm, h3, by simp, by simp⟩
      | none =>
        rw [hm] at h
        obtain ⟨i, pat, f', bs, d', u, g1, g2, g3, g4, g5, g6⟩ := ih h2 h
        refine ⟨i + 1, pat, f', bs, d', u, by simpa using g1, g2, g3, g4, ?_, ?_⟩
        · rw [g5, show ix + 1 + i = ix + (i + 1) by omega]
        · intro j hj q' g' hg
          cases j with
          | zero => simp at hg; obtain ⟨rfl, rfl⟩ := hg; exact hm
          | succ j => exact g6 j (by omega) q' g' (by simpa using hg)

theorem align_arith {o n : Nat} (hn : 0 < n) :
    o + (n - o % n) % n < o + n ∧ (o + (n - o % n) % n) % n = 0 := by
  have h1 : (n - o % n) % n < n := Nat.mod_lt _ hn
  refine ⟨by omega, ?_⟩
  have h2 := Nat.mod_lt o hn
  by_cases h0 : o % n = 0
  · rw [h0, Nat.sub_zero, Nat.mod_self, Nat.add_zero, h0]
  · rw [Nat.mod_eq_of_lt (show n - o % n < n by omega), Nat.add_mod, Nat.mod_eq_of_lt (show n - o % n < n by omega)]
    rw [show o % n + (n - o % n) = n by omega, Nat.mod_self]

/-- A decoder of a format with hints is a decoder of the format without them. -/
theorem unhint (R : CRel) (f : Format) (next : Next) (d : Decoder) (h : Compiles R f next d) :
    ∃ g, Compiles R g next d ∧ (∀ g', g ≠ .hint g') ∧
      ∀ m rej s c v c' k, Parses m rej g s c v c' k → Parses m rej f s c v c' k := by
  match f with
  | .hint f =>
    cases h with
    | hint h =>
      obtain ⟨g, h1, h2, h3⟩ := unhint R f next d h
      exact ⟨g, h1, h2, fun m rej s c v c' k hp => .hint (h3 m rej s c v c' k hp)⟩
  | .itemVar .. | .fail | .endOfInput | .align .. | .byte .. | .variant .. | .union .. | .unionNondet ..
  | .tuple .. | .sequence .. | .repeat_ .. | .repeat1 .. | .repeatCount .. | .repeatBetween ..
  | .repeatUntilLast .. | .repeatUntilSeq .. | .accumUntil .. | .forEach .. | .maybe .. | .peek ..
  | .peekNot .. | .slice .. | .bits .. | .withRelativeOffset .. | .map .. | .where_ .. | .compute ..
  | .let_ .. | .match_ .. | .dynamic .. | .apply .. | .pos | .skipRemainder | .decodeBytes ..
  | .letFormat .. | .monadSeq .. | .liftedNone | .liftedSome .. | .letView .. | .captureBytes ..
  | .readArray .. | .reifyView .. | .parseFromView .. | .phantom .. | .enforce .. | .permit .. =>
    exact ⟨_, h, by simp, fun _ _ _ _ _ _ _ hp => hp⟩

/-- "`f` is rejected at `c`": some decoder compiled for it reports an error there. -/
def Rejected (R : CRel) (env : Env) (f : Format) (s : Scope Format) (c : ReadCtxt) : Prop :=
  ∃ next d s' fuel e, Compiles R f next d ∧ ScopeRel (fun f d => ∃ next, Compiles R f next d) s s' ∧
    Decoder.parse env fuel d s' c = .err e

/-- The decoders of a program and those made at run time are decoders of what they stand for. -/
structure Linked (R : CRel) (m : Module) (env : Env) : Prop where
  item : ∀ level it, R.item level = some it → m.items[level]? = some it
  calls : ∀ level next k it, R.item level = some it → R.calls level next k →
    ∃ d, env.program[k]? = some d ∧ Compiles R it.format next d
  dyn : ∀ f d, env.compileOne f = .ok (some d) → ∃ next, Compiles R f next d

theorem parse_sound {R : CRel} {m : Module} {env : Env} (hl : Linked R m env) (fuel : Nat) :
    ∀ f next d s s' c w, Compiles R f next d →
      ScopeRel (fun f d => ∃ next, Compiles R f next d) s s' →
      Decoder.parse env fuel d s' c = .ok w →
      Parses m (Rejected R env) f s c w.value.1 w.value.2 w.errs.length := by
  induction fuel with
  | zero => intro f next d s s' c w _ _ h; cases h
  | succ n ih =>
    intro f0 next d s s' c w hc0 hs h
    obtain ⟨f, hc, hnh, lift⟩ := unhint R f0 next d hc0
    apply lift
    have hdec : ∀ {f next d s s'}, Compiles R f next d →
        ScopeRel (fun f d => ∃ next, Compiles R f next d) s s' →
        Decodes m (Rejected R env) f s (fun c => Decoder.parse env n d s' c) :=
      fun h1 h2 c w h3 => ih _ _ _ _ _ _ _ h1 h2 h3
    clear lift hc0
    cases hc with
    | hint _ => exact absurd rfl (hnh _)
    | itemVar h1 h2 h3 =>
      simp only [Decoder.parse] at h
      obtain ⟨es, h4, h⟩ := Outcome.bind_eq_ok.1 h
      obtain ⟨vs, h5, h⟩ := Outcome.bind_eq_ok.1 h
      obtain ⟨d, h6, h⟩ := Outcome.bind_eq_ok.1 h
      have h6 := Compiler.unwrap_eq_ok.1 (Outcome.ofPanicky_eq_ok.1 h6)
      obtain ⟨d', h7, h8⟩ := hl.calls _ _ _ _ h1 h3
      rw [h6] at h7; cases h7
      exact .itemVar (hl.item _ _ h1) (argsAre hs h4) (viewsAre hs h5)
        (ih _ _ _ (.multi (es ++ vs) .empty) _ _ _ h8 (.multi .empty) h)
    | phantom => simp only [Decoder.parse] at h; cases h; exact .phantom
    | fail => simp only [Decoder.parse] at h; cases h
    | decodeBytes h1 =>
      simp only [Decoder.parse] at h
      obtain ⟨vs, h2, h⟩ := Outcome.bind_eq_ok.1 h
      obtain ⟨bs, h3, h⟩ := Outcome.bind_eq_ok.1 h
      obtain ⟨w1, h4, h⟩ := Outcome.bind_eq_ok.1 h
      simp only [WithErr.joinO] at h
      obtain ⟨w2, h5, h⟩ := Outcome.bind_eq_ok.1 h
      cases h
      have hi := denotesItems hs (Outcome.ofPanicky_eq_ok.1 h2)
      have hb := areBytes (Outcome.ofPanicky_eq_ok.1 h3)
      have hp := ih _ _ _ _ _ _ _ h1 hs h4
      have hin : w1.value.2.input = bs := hp.forward.1
      cases hr : w1.value.2.readByte with
      | some p =>
        obtain ⟨b, c1⟩ := p
        rw [hr] at h5
        cases h5
        have := (List.getElem?_eq_some_iff.1 (readByte_some hr).1).1
        rw [hin] at this
        simp only [WithErr.withErr, List.length_append, List.length_cons, List.length_nil, Nat.add_comm 1]
        exact .decodeBytes_trailing hi hb hp this
      | none =>
        rw [hr] at h5
        cases h5
        have := (ReadCtxt.C06_readByte _).2.1 hr
        rw [hin] at this
        simp only [WithErr.new, List.nil_append]
        exact .decodeBytes hi hb hp this
    | parseFromView h1 =>
      simp only [Decoder.parse] at h
      obtain ⟨c1, h2, h⟩ := Outcome.bind_eq_ok.1 h
      obtain ⟨w1, h3, h⟩ := Outcome.bind_eq_ok.1 h
      cases h
      exact .parseFromView (viewAt hs h2) (ih _ _ _ _ _ _ w1 h1 hs h3)
    | pos => simp only [Decoder.parse] at h; cases h; exact .pos
    | letView h1 =>
      simp only [Decoder.parse] at h
      exact .letView (ih _ _ _ _ _ _ _ h1 (.view hs) h)
    | endOfInput =>
      simp only [Decoder.parse] at h
      cases hr : c.readByte with
      | some p => rw [hr] at h; cases h
      | none =>
        rw [hr] at h
        cases h
        exact .endOfInput ((ReadCtxt.C06_readByte _).2.1 hr)
    | align =>
      simp only [Decoder.parse] at h
      split at h
      · cases h
      · next h0 =>
        obtain ⟨r, h1, h⟩ := Outcome.bind_eq_ok.1 h
        match r with
        | none => cases h
        | some (a, b) =>
          cases h
          obtain ⟨h2, _, rfl⟩ := splitAt_some (Outcome.ofPanicky_eq_ok.1 h1)
          have := align_arith (o := c.offset) (Nat.pos_of_ne_zero h0)
          exact .align (Nat.pos_of_ne_zero h0) (Nat.le_add_right _ _) this.1 this.2 h2
    | byte =>
      simp only [Decoder.parse] at h
      cases hr : c.readByte with
      | none => rw [hr] at h; cases h
      | some p =>
        obtain ⟨b, c1⟩ := p
        rw [hr] at h
        simp only [] at h
        split at h
        · next hb =>
          cases h
          obtain ⟨h1, rfl⟩ := readByte_some hr
          exact .byte h1 hb
        · cases h
    | skipRemainder => simp only [Decoder.parse] at h; cases h; exact .skipRemainder
    | variant h1 =>
      simp only [Decoder.parse] at h
      obtain ⟨w1, h2, h⟩ := Outcome.bind_eq_ok.1 h
      cases h
      exact .variant (ih _ _ _ _ _ _ _ h1 hs h2)
    | union h1 h2 =>
      simp only [Decoder.parse] at h
      split at h
      · cases h
      · next i hi =>
        obtain ⟨d, h3, h⟩ := Outcome.bind_eq_ok.1 h
        obtain ⟨w1, h4, h⟩ := Outcome.bind_eq_ok.1 h
        cases h
        obtain ⟨f, h5, h6⟩ := CompilesAll.get h1 (Compiler.unwrap_eq_ok.1 (Outcome.ofPanicky_eq_ok.1 h3))
        exact .union h5 (ih _ _ _ _ _ _ _ h6 hs h4)
    | unionNondet h1 =>
      simp only [Decoder.parse] at h
      obtain ⟨i, d, f, u, _, h3, h4, h5, rfl, h6⟩ := parallelLoop_ok h1 h
      simp only [WithErr.map, Nat.zero_add]
      refine .unionNondet h3 ?_ (ih _ _ _ _ _ _ _ h4 hs h5)
      intro j hj g hg
      obtain ⟨e, d', h7, h8⟩ := h6 j hj g hg
      exact ⟨_, d', s', n, e, h7, hs, h8⟩
    | tuple h1 =>
      simp only [Decoder.parse] at h
      obtain ⟨acc, h2, h⟩ := Outcome.bind_eq_ok.1 h
      cases h
      obtain ⟨vs, k, ⟨h3, h4⟩, h5⟩ := foldFields_ok (fun f next d hc => hdec hc hs) h1 h2
      simp only [WithErr.map, WithErr.new, List.nil_append, List.length_nil, Nat.add_zero] at *
      rw [h3, h4]
      exact .tuple h5
    | sequence h1 =>
      simp only [Decoder.parse] at h
      obtain ⟨acc, h2, h⟩ := Outcome.bind_eq_ok.1 h
      cases h
      obtain ⟨vs, k, ⟨h3, h4⟩, h5⟩ := foldFields_ok (fun f next d hc => hdec hc hs) h1 h2
      simp only [WithErr.map, WithErr.new, List.nil_append, List.length_nil, Nat.add_zero] at *
      rw [h3, h4]
      exact .sequence h5
    | repeat_ _ h1 _ =>
      simp only [Decoder.parse] at h
      obtain ⟨acc, h2, h⟩ := Outcome.bind_eq_ok.1 h
      cases h
      obtain ⟨vs, k, ⟨h3, h4⟩, h5⟩ := whileLoop_ok (hdec h1 hs) h2
      simp only [WithErr.map, WithErr.new, List.nil_append, List.length_nil, Nat.add_zero] at *
      rw [h3, h4]
      exact .repeat_ h5
    | repeat1 _ h1 _ =>
      simp only [Decoder.parse] at h
      obtain ⟨acc, h2, h⟩ := Outcome.bind_eq_ok.1 h
      cases h
      obtain ⟨vs, k, ⟨h3, h4⟩, h5, h6⟩ := untilLoop_ok (hdec h1 hs) h2
      simp only [WithErr.map, WithErr.new, List.nil_append, List.length_nil, Nat.add_zero] at *
      rw [h3, h4]
      exact .repeat1 h5 h6
    | repeatCount h1 =>
      simp only [Decoder.parse] at h
      obtain ⟨k0, hk0, h⟩ := Outcome.bind_eq_ok.1 h
      obtain ⟨acc, h2, h⟩ := Outcome.bind_eq_ok.1 h
      cases h
      have hk0 := denotesNat hs (Outcome.ofPanicky_eq_ok.1 hk0)
      obtain ⟨vs, k, ⟨h3, h4⟩, h5, h6⟩ := foldMany_ok (hdec h1 hs) h2
      simp only [WithErr.map, WithErr.new, List.nil_append, List.length_nil, Nat.add_zero] at *
      rw [h3, h4]
      exact .repeatCount hk0 h5 h6
    | repeatBetween _ _ h1 _ =>
      simp only [Decoder.parse] at h
      obtain ⟨lo, hlo, h⟩ := Outcome.bind_eq_ok.1 h
      obtain ⟨hi, hhi, h⟩ := Outcome.bind_eq_ok.1 h
      obtain ⟨acc, h2, h⟩ := Outcome.bind_eq_ok.1 h
      cases h
      have hlo := denotesNat hs (Outcome.ofPanicky_eq_ok.1 hlo)
      have hhi := denotesNat hs (Outcome.ofPanicky_eq_ok.1 hhi)
      obtain ⟨vs, k, ⟨h3, h4⟩, h5, h6, h7⟩ := betweenLoop_ok (hdec h1 hs) (Nat.zero_le _) h2
      simp only [WithErr.map, WithErr.new, List.nil_append, List.length_nil, Nat.add_zero] at *
      rw [h3] at h6 h7
      rw [h3, h4]
      exact .repeatBetween hlo hhi h5 h6 h7
    | repeatUntilLast h1 =>
      simp only [Decoder.parse] at h
      obtain ⟨acc, h2, h⟩ := Outcome.bind_eq_ok.1 h
      cases h
      obtain ⟨init, last, k, ⟨h3, h4⟩, h5, h6, h7⟩ := untilDoneLoop_ok (hdec h1 hs) h2
      simp only [WithErr.map, WithErr.new, List.nil_append, List.length_nil, Nat.add_zero] at *
      rw [h3, h4]
      refine .repeatUntilLast h5 (sendsBool hs h6) ?_
      intro v hv
      obtain ⟨i, hi⟩ := List.mem_iff_getElem?.1 hv
      exact sendsBool hs (h7 i v hi)
    | repeatUntilSeq h1 =>
      simp only [Decoder.parse] at h
      obtain ⟨acc, h2, h⟩ := Outcome.bind_eq_ok.1 h
      cases h
      obtain ⟨init, last, k, ⟨h3, h4⟩, h5, h6, h7⟩ := untilDoneLoop_ok (hdec h1 hs) h2
      simp only [WithErr.map, WithErr.new, List.nil_append, List.length_nil, Nat.add_zero] at *
      rw [h3, h4]
      refine .repeatUntilSeq h5 (by simp) (sendsBool hs h6) ?_
      intro n hn hlt
      simp only [List.length_append, List.length_cons, List.length_nil] at hlt
      have hlt' : n - 1 < init.length := by omega
      have := sendsBool hs (h7 (n - 1) init[n - 1] (List.getElem?_eq_getElem hlt'))
      rw [show n - 1 + 1 = n by omega] at this
      rw [List.take_append_of_le_length (by omega)]
      exact this
    | forEach h1 =>
      simp only [Decoder.parse] at h
      obtain ⟨items, hi, h⟩ := Outcome.bind_eq_ok.1 h
      obtain ⟨acc, h2, h⟩ := Outcome.bind_eq_ok.1 h
      cases h
      have hi := denotesItems hs (Outcome.ofPanicky_eq_ok.1 hi)
      obtain ⟨vs, k, ⟨h3, h4⟩, h5⟩ := foldEach_ok (fun v => hdec h1 (.single hs)) h2
      simp only [WithErr.map, WithErr.new, List.nil_append, List.length_nil, Nat.add_zero] at *
      rw [h3, h4]
      exact .forEach hi h5
    | accumUntil h1 =>
      simp only [Decoder.parse] at h
      obtain ⟨a, ha, h⟩ := Outcome.bind_eq_ok.1 h
      obtain ⟨⟨r, acc⟩, h2, h⟩ := Outcome.bind_eq_ok.1 h
      cases h
      have ha := denotes hs (Outcome.ofPanicky_eq_ok.1 ha)
      obtain ⟨vs, k, ⟨h3, h4⟩, h5, h6⟩ := accumLoop_ok hs (hdec h1 hs) h2
      simp only [WithErr.map, WithErr.new, List.nil_append, List.length_nil, Nat.add_zero] at *
      rw [h3, h4]
      exact .accumUntil ha h5 h6
    | maybe h1 =>
      simp only [Decoder.parse] at h
      obtain ⟨b, h2, h⟩ := Outcome.bind_eq_ok.1 h
      have h2 := denotesBool hs (Outcome.ofPanicky_eq_ok.1 h2)
      cases b with
      | true =>
        obtain ⟨w1, h3, h⟩ := Outcome.bind_eq_ok.1 h
        cases h
        exact .maybe_some h2 (ih _ _ _ _ _ _ _ h1 hs h3)
      | false => cases h; exact .maybe_none h2
    | peek h1 =>
      simp only [Decoder.parse] at h
      obtain ⟨w1, h2, h⟩ := Outcome.bind_eq_ok.1 h
      cases h
      exact .peek (ih _ _ _ _ _ _ w1 h1 hs h2)
    | peekNot _ h1 =>
      simp only [Decoder.parse] at h
      split at h
      · cases h
      · next e he => cases h; exact .peekNot ⟨_, _, s', n, e, h1, hs, he⟩
      · cases h
      · cases h
    | slice h1 =>
      simp only [Decoder.parse] at h
      obtain ⟨k, h2, h⟩ := Outcome.bind_eq_ok.1 h
      obtain ⟨r, h3, h⟩ := Outcome.bind_eq_ok.1 h
      match r with
      | none => cases h
      | some (a, b) =>
        obtain ⟨h4, rfl, rfl⟩ := splitAt_some (Outcome.ofPanicky_eq_ok.1 h3)
        obtain ⟨w1, h5, h⟩ := Outcome.bind_eq_ok.1 h
        cases h
        exact .slice (denotesNat hs (Outcome.ofPanicky_eq_ok.1 h2)) h4 (ih _ _ _ _ _ _ w1 h1 hs h5)
    | bits h1 =>
      simp only [Decoder.parse] at h
      obtain ⟨bytes, h2, h⟩ := Outcome.bind_eq_ok.1 h
      have h2 := Outcome.ofPanicky_eq_ok.1 h2
      obtain ⟨w1, h3, hj⟩ := Outcome.bind_eq_ok.1 h
      unfold ReadCtxt.remaining at h2
      split at h2
      · next hin =>
        cases h2
        rw [bitsOf_eq] at h3
        have hp := ih _ _ _ _ _ _ _ h1 hs h3
        simp only [WithErr.joinO] at hj
        obtain ⟨w2, h4, hj⟩ := Outcome.bind_eq_ok.1 hj
        cases hj
        obtain ⟨_, rfl⟩ := finishBits_ok hp.forward.1 h4
        simp only [WithErr.new, List.nil_append]
        exact .bits hin hp
      · cases h2
    | withRelativeOffset h1 =>
      simp only [Decoder.parse] at h
      obtain ⟨b, h2, h⟩ := Outcome.bind_eq_ok.1 h
      obtain ⟨o, h3, h⟩ := Outcome.bind_eq_ok.1 h
      obtain ⟨t, h4, h⟩ := Outcome.bind_eq_ok.1 h
      have h4 := Outcome.ofPanicky_eq_ok.1 h4
      have ht : t = b + o := by unfold addUsize at h4; split at h4 <;> cases h4; rfl
      subst ht
      unfold ReadCtxt.seekTo at h
      split at h
      · cases h
      · next c1 hc1 =>
        split at hc1
        · next hle =>
          cases hc1
          obtain ⟨w1, h5, h⟩ := Outcome.bind_eq_ok.1 h
          cases h
          exact .withRelativeOffset (denotesNat hs (Outcome.ofPanicky_eq_ok.1 h2))
            (denotesNat hs (Outcome.ofPanicky_eq_ok.1 h3)) hle (ih _ _ _ _ _ _ w1 h1 hs h5)
        · cases hc1
    | map h1 =>
      simp only [Decoder.parse] at h
      obtain ⟨w1, h2, h⟩ := Outcome.bind_eq_ok.1 h
      obtain ⟨v, h3, h⟩ := Outcome.bind_eq_ok.1 h
      cases h
      exact .map (ih _ _ _ _ _ _ _ h1 hs h2) (sends hs (Outcome.ofPanicky_eq_ok.1 h3))
    | where_ h1 =>
      simp only [Decoder.parse] at h
      obtain ⟨w1, h2, h⟩ := Outcome.bind_eq_ok.1 h
      simp only [WithErr.joinO] at h
      obtain ⟨w2, h3, h⟩ := Outcome.bind_eq_ok.1 h
      cases h
      obtain ⟨b, h4, h3⟩ := Outcome.bind_eq_ok.1 h3
      have h4 := sendsBool hs (Outcome.ofPanicky_eq_ok.1 h4)
      have hp := ih _ _ _ _ _ _ _ h1 hs h2
      cases b with
      | true =>
        cases h3
        simp only [WithErr.new, List.nil_append]
        exact .where_ hp h4
      | false =>
        simp only [Bool.false_eq_true, if_false] at h3
        split at h3
        · cases h3
        · next hst =>
          cases h3
          simp only [WithErr.withErr, List.length_append, List.length_cons, List.length_nil, Nat.add_comm 1]
          simp only [Bool.not_eq_true] at hst
          subst hst
          exact .where_lenient hp h4
    | enforce h1 =>
      simp only [Decoder.parse] at h
      obtain ⟨w1, h2, h⟩ := Outcome.bind_eq_ok.1 h
      have hp := ih _ _ _ _ _ _ _ h1 hs h2
      split at h
      · next he =>
        cases h
        rw [he] at hp
        exact .enforce hp
      · cases h
    | permit h1 =>
      simp only [Decoder.parse] at h
      split at h
      · next w1 h2 => cases h; exact .permit (ih _ _ _ _ _ _ _ h1 hs h2)
      · next e he =>
        obtain ⟨v, h3, h⟩ := Outcome.bind_eq_ok.1 h
        cases h
        exact .permit_fallback ⟨_, _, s', n, e, h1, hs, he⟩ (denotes hs (Outcome.ofPanicky_eq_ok.1 h3))
      · cases h
      · cases h
    | compute =>
      simp only [Decoder.parse] at h
      obtain ⟨v, h3, h⟩ := Outcome.bind_eq_ok.1 h
      cases h
      exact .compute (denotes hs (Outcome.ofPanicky_eq_ok.1 h3))
    | let_ h1 =>
      simp only [Decoder.parse] at h
      obtain ⟨v, h3, h⟩ := Outcome.bind_eq_ok.1 h
      exact .let_ (denotes hs (Outcome.ofPanicky_eq_ok.1 h3)) (ih _ _ _ _ _ _ _ h1 (.single hs) h)
    | match_ h1 =>
      simp only [Decoder.parse] at h
      obtain ⟨v, h3, h⟩ := Outcome.bind_eq_ok.1 h
      have h3 := Outcome.ofPanicky_eq_ok.1 h3
      rw [hs.eval] at h3
      obtain ⟨i, pat, f, bs, d, u, h4, h5, h6, h7, rfl, h8⟩ := matchLoop_ok h1 h
      simp only [WithErr.map, Nat.zero_add]
      exact .match_ h3 h4 h6 h8 (ih _ _ _ _ _ _ _ h5 (hs.withBindings bs) h7)
    | dynamic h1 =>
      simp only [Decoder.parse] at h
      obtain ⟨lv, h2, h⟩ := Outcome.bind_eq_ok.1 h
      obtain ⟨g, h3, h⟩ := Outcome.bind_eq_ok.1 h
      have h2 := Outcome.ofPanicky_eq_ok.1 h2
      rw [evalHuffman_eq hs] at h2
      split at h
      · next dyn hd =>
        exact .dynamic h2 (Outcome.ofPanicky_eq_ok.1 h3)
          (ih _ _ _ _ _ _ _ h1 (.decoder (hl.dyn _ _ hd) hs) h)
      · cases h
      · cases h
      · cases h
    | apply =>
      simp only [Decoder.parse] at h
      obtain ⟨d, h2, h⟩ := Outcome.bind_eq_ok.1 h
      obtain ⟨g, h3, nx, h4⟩ := hs.getDecoder (Compiler.unwrap_eq_ok.1 (Outcome.ofPanicky_eq_ok.1 h2))
      exact .apply h3 (ih _ _ _ _ _ _ _ h4 hs h)
    | letFormat h1 h2 =>
      simp only [Decoder.parse] at h
      obtain ⟨w1, h3, h⟩ := Outcome.bind_eq_ok.1 h
      simp only [WithErr.joinO] at h
      obtain ⟨w2, h4, h⟩ := Outcome.bind_eq_ok.1 h
      cases h
      simp only [List.length_append]
      rw [Nat.add_comm]
      exact .letFormat (ih _ _ _ _ _ _ _ h1 hs h3) (ih _ _ _ _ _ _ _ h2 (.single hs) h4)
    | monadSeq h1 h2 =>
      simp only [Decoder.parse] at h
      obtain ⟨w1, h3, h⟩ := Outcome.bind_eq_ok.1 h
      simp only [WithErr.joinO] at h
      obtain ⟨w2, h4, h⟩ := Outcome.bind_eq_ok.1 h
      cases h
      simp only [List.length_append]
      rw [Nat.add_comm]
      exact .monadSeq (ih _ _ _ _ _ _ _ h1 hs h3) (ih _ _ _ _ _ _ _ h2 hs h4)
    | liftedNone => simp only [Decoder.parse] at h; cases h; exact .liftedNone
    | liftedSome h1 =>
      simp only [Decoder.parse] at h
      obtain ⟨w1, h2, h⟩ := Outcome.bind_eq_ok.1 h
      cases h
      exact .liftedSome (ih _ _ _ _ _ _ _ h1 hs h2)
    | captureBytes =>
      simp only [Decoder.parse] at h
      obtain ⟨k, h1, h⟩ := Outcome.bind_eq_ok.1 h
      obtain ⟨c1, h2, h⟩ := Outcome.bind_eq_ok.1 h
      obtain ⟨vs, h3, h⟩ := Outcome.bind_eq_ok.1 h
      cases h
      obtain ⟨h4, rfl⟩ := captureLoop_ok h3
      exact .captureBytes (viewAt hs h2) (denotesNat hs (Outcome.ofPanicky_eq_ok.1 h1)) h4
    | readArray =>
      simp only [Decoder.parse] at h
      obtain ⟨k, h1, h⟩ := Outcome.bind_eq_ok.1 h
      obtain ⟨c1, h2, h⟩ := Outcome.bind_eq_ok.1 h
      obtain ⟨vs, h3, h⟩ := Outcome.bind_eq_ok.1 h
      cases h
      obtain ⟨h4, h5, rfl⟩ := readArrayLoop_ok h3
      exact .readArray (viewAt hs h2) (denotesNat hs (Outcome.ofPanicky_eq_ok.1 h1)) h4 h5
    | reifyView =>
      simp only [Decoder.parse] at h
      obtain ⟨c1, h2, h⟩ := Outcome.bind_eq_ok.1 h
      cases h
      exact .reifyView (viewAt hs h2)

end Sound
end Doodle
