import Verif.Lemmas.Located

/-! Locations recorded by location-tracking decoding. -/

namespace Doodle
namespace Loc

open ParsedValue (WithinAll WithinFields)

/-- `U` bounds the locations recorded when the input has been consumed up to an offset: that offset itself,
or, if decoding is not confined to what it consumes, the length `M` of the input. -/
structure Caps (free : Bool) (U : Nat → Nat) (lo M : Nat) : Prop where
  ge : ∀ o, o ≤ M → o ≤ U o
  mono : ∀ o o', o ≤ o' → U o ≤ U o'
  free : free = true → lo = 0 ∧ ∀ o, U o = M

/-- what a scope holds -/
structure ScopeOk (free : Bool) (calls : Nat → Bool) (lo hi M : Nat) (s : LocScope Decoder) : Prop where
  vals : ∀ x v, s.getValue x = some v → v.Within lo hi
  views : ∀ x c, s.getView x = some c → c.offset ≤ c.input.length ∧ c.input.length ≤ M
  decs : ∀ x d, s.getDecoder x = some d → Tidy free calls [] d = true

section
variable {free : Bool} {calls : Nat → Bool} {U : Nat → Nat} {lo hi M : Nat} {s : LocScope Decoder}

theorem ScopeOk.mono {hi' : Nat} (h : ScopeOk free calls lo hi M s) (hh : hi ≤ hi') : ScopeOk free calls lo hi' M s :=
  ⟨fun x v hv => within_mono (Nat.le_refl _) hh (h.vals x v hv), h.views, h.decs⟩

theorem ScopeOk.empty : ScopeOk free calls lo hi M .empty :=
  ⟨fun _ _ h => (by cases h), fun _ _ h => (by cases h), fun _ _ h => (by cases h)⟩

theorem ScopeOk.single {x : String} {v : ParsedValue} (hv : v.Within lo hi) (h : ScopeOk free calls lo hi M s) :
    ScopeOk free calls lo hi M (.single x v s) := by
  refine ⟨fun y w hy => ?_, fun y c hy => h.views y c hy, fun y d hy => h.decs y d hy⟩
  rw [LocScope.getValue] at hy
  split at hy
  · cases hy; exact hv
  · exact h.vals y w hy

theorem ScopeOk.decoder {x : String} {d : Decoder} (hd : Tidy free calls [] d = true)
    (h : ScopeOk free calls lo hi M s) : ScopeOk free calls lo hi M (.decoder x d s) := by
  refine ⟨fun y w hy => h.vals y w hy, fun y c hy => h.views y c hy, fun y d' hy => ?_⟩
  rw [LocScope.getDecoder] at hy
  split at hy
  · cases hy; exact hd
  · exact h.decs y d' hy

theorem ScopeOk.view {x : String} {c : ReadCtxt} (hc : c.offset ≤ c.input.length ∧ c.input.length ≤ M)
    (h : ScopeOk free calls lo hi M s) : ScopeOk free calls lo hi M (.view x c s) := by
  refine ⟨fun y w hy => h.vals y w hy, fun y c' hy => ?_, fun y d hy => h.decs y d hy⟩
  rw [LocScope.getView] at hy
  split at hy
  · cases hy; exact hc
  · exact h.views y c' hy

/-- what an entry of a scope may hold -/
def EntryOk (lo hi M : Nat) : LocEntry → Prop
  | .value v => v.Within lo hi
  | .view c => c.offset ≤ c.input.length ∧ c.input.length ≤ M

theorem findValue_mem {x : String} {v : ParsedValue} : ∀ {es : List (String × LocEntry)},
    LocScope.findValue x es = some v → (x, .value v) ∈ es
  | [], h => by cases h
  | (y, e) :: es, h => by
    unfold LocScope.findValue at h
    split at h
    · next hy =>
      subst hy
      cases e with
      | value w => cases h; simp
      | view c => exact List.mem_cons_of_mem _ (findValue_mem h)
    · exact List.mem_cons_of_mem _ (findValue_mem h)

theorem findView_mem {x : String} {v : ReadCtxt} : ∀ {es : List (String × LocEntry)},
    LocScope.findView x es = some v → (x, .view v) ∈ es
  | [], h => by cases h
  | (y, e) :: es, h => by
    unfold LocScope.findView at h
    split at h
    · next hy =>
      subst hy
      cases e with
      | view w => cases h; simp
      | value c => exact List.mem_cons_of_mem _ (findView_mem h)
    · exact List.mem_cons_of_mem _ (findView_mem h)

theorem ScopeOk.multi {es : List (String × LocEntry)} (he : ∀ e ∈ es, EntryOk lo hi M e.2)
    (h : ScopeOk free calls lo hi M s) : ScopeOk free calls lo hi M (.multi es s) := by
  refine ⟨fun y w hy => ?_, fun y c hy => ?_, fun y d hy => h.decs y d hy⟩
  · rw [LocScope.getValue] at hy
    split at hy
    · next h1 =>
      cases hy
      exact he _ (List.mem_reverse.1 (findValue_mem h1))
    · exact h.vals y w hy
  · rw [LocScope.getView] at hy
    split at hy
    · next h1 =>
      cases hy
      exact he _ (List.mem_reverse.1 (findView_mem h1))
    · exact h.views y c hy

theorem ScopeOk.withBindings {bs : List (String × ParsedValue)} (hb : ∀ b ∈ bs, b.2.Within lo hi)
    (h : ScopeOk free calls lo hi M s) : ScopeOk free calls lo hi M (s.withBindings bs) := by
  refine .multi (fun e he => ?_) h
  obtain ⟨b, h1, rfl⟩ := List.mem_map.1 he
  exact hb b h1

theorem getValue_withBindings {bs : List (String × ParsedValue)} {x : String} (hx : ∀ b ∈ bs, b.1 ≠ x) :
    (s.withBindings bs).getValue x = s.getValue x := by
  unfold LocScope.withBindings
  rw [LocScope.getValue]
  split
  · next v h1 =>
    have := List.mem_reverse.1 (findValue_mem h1)
    obtain ⟨b, h2, h3⟩ := List.mem_map.1 this
    cases h3
    exact absurd rfl (hx b h2)
  · rfl

theorem mem_without {x : String} {xs own : List String} (h : x ∈ without xs own) : x ∉ xs := by
  unfold without at h
  have := (List.mem_filter.1 h).2
  simpa using this

theorem Chain.single {x : String} {v : ParsedValue} {own : List String} {S h : Nat} (hc : Chain s own S h) :
    Chain (.single x v s) (without [x] own) S h := by
  refine (hc.filter).congr fun y hy => ?_
  have hy : y ∈ without [x] own := hy
  have := mem_without hy
  rw [LocScope.getValue, if_neg (fun e => this (by simp [e]))]

theorem Chain.bind {x : String} {v : ParsedValue} {own : List String} {S m h : Nat} (hc : Chain s own S m)
    (hm : m ≤ h) (hv : v.getLoc.Within m h) : Chain (.single x v s) (x :: without [x] own) S h :=
  ⟨m, hc.single, hm, v, by rw [LocScope.getValue, if_pos rfl], hv⟩

/-- what a parse from `c` yields -/
structure Post (U : Nat → Nat) (lo : Nat) (c : ReadCtxt) (w : LocParsed) : Prop where
  same : w.value.2.input = c.input
  fwd : c.offset ≤ w.value.2.offset
  inside : w.value.2.offset ≤ c.input.length
  vals : w.value.1.Within lo (U w.value.2.offset)

/-- what a loop started at `c` holds -/
structure AccOk (U : Nat → Nat) (lo : Nat) (c : ReadCtxt) (a : LocDecoder.Acc) : Prop where
  same : a.value.2.input = c.input
  fwd : c.offset ≤ a.value.2.offset
  inside : a.value.2.offset ≤ c.input.length
  vals : ∀ v ∈ a.value.1, v.Within lo (U a.value.2.offset)

theorem AccOk.start {c : ReadCtxt} (hc : c.offset ≤ c.input.length) : AccOk U lo c (.new ([], c)) :=
  ⟨rfl, Nat.le_refl _, hc, fun v h => by cases h⟩

theorem AccOk.push (hC : Caps free U lo M) {c : ReadCtxt} {a : LocDecoder.Acc} {w : LocParsed} (h : AccOk U lo c a)
    (hw : Post U lo a.value.2 w) : AccOk U lo c (LocDecoder.push a w) := by
  refine ⟨hw.same.trans h.same, Nat.le_trans h.fwd hw.fwd, h.same ▸ hw.inside, fun v hv => ?_⟩
  rcases List.mem_append.1 hv with hv | hv
  · exact within_mono (Nat.le_refl _) (hC.mono _ _ hw.fwd) (h.vals v hv)
  · rw [List.mem_singleton.1 hv]; exact hw.vals

/-- `p` decodes as it should from everywhere after `c` -/
def Good (U : Nat → Nat) (lo : Nat) (c : ReadCtxt) (p : ReadCtxt → Outcome LocErr LocParsed) : Prop :=
  ∀ c' w, c'.input = c.input → c.offset ≤ c'.offset → c'.offset ≤ c.input.length → p c' = .ok w → Post U lo c' w

theorem Good.at {c : ReadCtxt} {p : ReadCtxt → Outcome LocErr LocParsed} (hp : Good U lo c p) {a : LocDecoder.Acc}
    (h : AccOk U lo c a) {w : LocParsed} (hw : p a.value.2 = .ok w) : Post U lo a.value.2 w :=
  hp _ _ h.same h.fwd h.inside hw

theorem foldItems_within (hC : Caps free U lo M) {σ : Type} {p : σ → ReadCtxt → Outcome LocErr LocParsed} {c : ReadCtxt} :
    ∀ {xs : List σ} {a a' : LocDecoder.Acc}, (∀ x ∈ xs, Good U lo c (p x)) → AccOk U lo c a →
      LocDecoder.foldItems p xs a = .ok a' → AccOk U lo c a'
  | [], _, _, _, ha, h => by cases h; exact ha
  | x :: xs, a, a', hp, ha, h => by
    rw [LocDecoder.foldItems] at h
    obtain ⟨w, h1, h⟩ := Outcome.bind_eq_ok.1 h
    exact foldItems_within hC (fun y hy => hp y (by simp [hy])) (ha.push hC ((hp x (by simp)).at ha h1)) h

theorem whileLoop_within (hC : Caps free U lo M) {p : ReadCtxt → Outcome LocErr LocParsed} {c : ReadCtxt}
    (hp : Good U lo c p) (t : MatchTree) : ∀ n {a a' : LocDecoder.Acc}, AccOk U lo c a →
      LocDecoder.whileLoop t p n a = .ok a' → AccOk U lo c a'
  | 0, _, _, _, h => by cases h
  | n + 1, a, a', ha, h => by
    rw [LocDecoder.whileLoop] at h
    split at h
    · cases h
    · obtain ⟨w, h1, h⟩ := Outcome.bind_eq_ok.1 h
      exact whileLoop_within hC hp t n (ha.push hC (hp.at ha h1)) h
    · cases h; exact ha

theorem untilLoop_within (hC : Caps free U lo M) {p : ReadCtxt → Outcome LocErr LocParsed} {c : ReadCtxt}
    (hp : Good U lo c p) (t : MatchTree) : ∀ n {a a' : LocDecoder.Acc}, AccOk U lo c a →
      LocDecoder.untilLoop t p n a = .ok a' → AccOk U lo c a'
  | 0, _, _, _, h => by cases h
  | n + 1, a, a', ha, h => by
    rw [LocDecoder.untilLoop] at h
    obtain ⟨w, h1, h⟩ := Outcome.bind_eq_ok.1 h
    split at h
    · cases h
    · cases h; exact ha.push hC (hp.at ha h1)
    · exact untilLoop_within hC hp t n (ha.push hC (hp.at ha h1)) h

theorem betweenLoop_within (hC : Caps free U lo M) {p : ReadCtxt → Outcome LocErr LocParsed} {c : ReadCtxt}
    (hp : Good U lo c p) (t : MatchTree) (x y : Nat) (st : ReadCtxt) : ∀ n {a a' : LocDecoder.Acc}, AccOk U lo c a →
      LocDecoder.betweenLoop t x y st p n a = .ok a' → AccOk U lo c a'
  | 0, _, _, _, h => by cases h
  | n + 1, a, a', ha, h => by
    rw [LocDecoder.betweenLoop] at h
    split at h
    · cases h
    · split at h
      · split at h
        · cases h
        · cases h; exact ha
      · obtain ⟨w, h1, h⟩ := Outcome.bind_eq_ok.1 h
        exact betweenLoop_within hC hp t x y st n (ha.push hC (hp.at ha h1)) h

theorem untilDoneLoop_within (hC : Caps free U lo M) {p : ReadCtxt → Outcome LocErr LocParsed} {c : ReadCtxt}
    (hp : Good U lo c p) {done : ParsedValue → List ParsedValue → Panicky Bool} : ∀ n {a a' : LocDecoder.Acc},
      AccOk U lo c a → LocDecoder.untilDoneLoop done p n a = .ok a' → AccOk U lo c a'
  | 0, _, _, _, h => by cases h
  | n + 1, a, a', ha, h => by
    rw [LocDecoder.untilDoneLoop] at h
    obtain ⟨w, h1, h⟩ := Outcome.bind_eq_ok.1 h
    obtain ⟨_, _, h⟩ := Outcome.bind_eq_ok.1 h
    split at h
    · cases h; exact ha.push hC (hp.at ha h1)
    · exact untilDoneLoop_within hC hp n (ha.push hC (hp.at ha h1)) h

theorem accumLoop_within (hC : Caps free U lo M) {p : ReadCtxt → Outcome LocErr LocParsed} {c : ReadCtxt}
    (hp : Good U lo c p) {done : Value → List ParsedValue → Panicky Bool} {upd : Value → ParsedValue → Panicky Value} :
    ∀ n {v : Value} {a : LocDecoder.Acc} {r}, AccOk U lo c a → LocDecoder.accumLoop done upd p n v a = .ok r →
      AccOk U lo c r.2
  | 0, _, _, _, _, h => by cases h
  | n + 1, v, a, r, ha, h => by
    rw [LocDecoder.accumLoop] at h
    obtain ⟨d, _, h⟩ := Outcome.bind_eq_ok.1 h
    split at h
    · cases h; exact ha
    · obtain ⟨w, h1, h⟩ := Outcome.bind_eq_ok.1 h
      obtain ⟨_, _, h⟩ := Outcome.bind_eq_ok.1 h
      exact accumLoop_within hC hp n (ha.push hC (hp.at ha h1)) h

/-- the whole of what was consumed -/
theorem span_within (hC : Caps free U lo M) {c : ReadCtxt} {o : Nat} (hlo : lo ≤ c.offset) (h1 : c.offset ≤ o) (hM : o ≤ M) :
    (ParseLoc.inBuffer c.offset (o - c.offset)).Within lo (U o) :=
  ⟨hlo, by have := hC.ge o hM; omega⟩

theorem subUsize_eq {a b n : Nat} (h : Outcome.ofPanicky (ε := LocErr) (LocDecoder.subUsize a b) = .ok n) : n = a - b := by
  unfold LocDecoder.subUsize at h
  split at h
  · cases h; rfl
  · cases h

theorem AccOk.finish (hC : Caps free U lo M) {c : ReadCtxt} {a : LocDecoder.Acc} {w : LocParsed} (hlo : lo ≤ c.offset)
    (hM : c.input.length ≤ M) (ha : AccOk U lo c a) (h : LocDecoder.finishSeq c.offset a = .ok w) :
    Post U lo c w ∧ w.value.1.getLoc.Within c.offset w.value.2.offset := by
  unfold LocDecoder.finishSeq at h
  obtain ⟨n, h1, h⟩ := Outcome.bind_eq_ok.1 h
  have := subUsize_eq h1
  cases h
  subst this
  refine ⟨⟨ha.same, ha.fwd, ha.inside, ?_, withinAll_iff.2 ha.vals⟩, Nat.le_refl _, ?_⟩
  · exact span_within hC hlo ha.fwd (Nat.le_trans ha.inside hM)
  · have := ha.fwd
    show c.offset + (a.value.2.offset - c.offset) ≤ a.value.2.offset
    omega

theorem readByte_eq {c c' : ReadCtxt} {b : UInt8} (h : c.readByte = some (b, c')) :
    c' = { c with offset := c.offset + 1 } ∧ c.offset + 1 ≤ c.input.length := by
  unfold ReadCtxt.readByte at h
  split at h
  · next hb => cases h; exact ⟨rfl, (List.getElem?_eq_some_iff.1 hb).1⟩
  · cases h

theorem splitAt_eq {c a b : ReadCtxt} {n : Nat} (h : c.splitAt n = .ok (some (a, b))) :
    a = { c with input := c.input.take (c.offset + n) } ∧ b = { c with offset := c.offset + n } ∧
      c.offset + n ≤ c.input.length := by
  unfold ReadCtxt.splitAt at h
  split at h
  · cases h
  · next e he =>
    unfold addUsize at he
    split at he
    · cases he
      split at h
      · cases h; exact ⟨rfl, rfl, by assumption⟩
      · cases h
    · cases he

theorem evalView_ok (hs : ScopeOk free calls lo hi M s) : ∀ {v : ViewExpr} {c : ReadCtxt},
    LocDecoder.evalView s v = .ok c → c.offset ≤ c.input.length ∧ c.input.length ≤ M
  | .var x, c, h => by
    rw [LocDecoder.evalView] at h
    exact hs.views x c (unwrap_eq_ok (Outcome.ofPanicky_eq_ok.1 h))
  | .offset b e, c, h => by
    rw [LocDecoder.evalView] at h
    obtain ⟨_, _, h⟩ := Outcome.bind_eq_ok.1 h
    obtain ⟨_, _, h⟩ := Outcome.bind_eq_ok.1 h
    obtain ⟨c', h1, h⟩ := Outcome.bind_eq_ok.1 h
    obtain ⟨r, h2, h⟩ := Outcome.bind_eq_ok.1 h
    have i := evalView_ok hs h1
    split at h
    · cases h
      have := splitAt_eq (Outcome.ofPanicky_eq_ok.1 h2)
      rw [this.2.1]
      exact ⟨this.2.2, i.2⟩
    · cases h

theorem evalArgs_ok {own : List String} {S h0 : Nat} (hs : ScopeOk free calls lo hi M s) (hc : Chain s own S h0)
    (hS : lo ≤ S) (hh : h0 ≤ hi) : ∀ {as : List (String × Expr)} {es : List (String × LocEntry)},
    (as.all fun a => TidyExpr own a.2) = true → LocDecoder.evalArgs s as = .ok es → ∀ e ∈ es, EntryOk lo hi M e.2
  | [], es, _, h => by rw [LocDecoder.evalArgs] at h; cases h; simp
  | (x, e) :: as, es, ht, h => by
    rw [LocDecoder.evalArgs] at h
    simp only [List.all_cons, Bool.and_eq_true] at ht
    obtain ⟨v, h1, h⟩ := Outcome.bind_eq_ok.1 h
    obtain ⟨r, h2, h⟩ := Outcome.bind_eq_ok.1 h
    cases h
    have i1 := eval_within hs.vals hc hS hh e ht.1 (Outcome.ofPanicky_eq_ok.1 h1)
    have i2 := evalArgs_ok hs hc hS hh ht.2 h2
    intro f hf
    rcases List.mem_cons.1 hf with rfl | hf
    · exact i1
    · exact i2 f hf

theorem evalViewArgs_ok (hs : ScopeOk free calls lo hi M s) : ∀ {as : List (String × ViewExpr)}
    {es : List (String × LocEntry)}, LocDecoder.evalViewArgs s as = .ok es → ∀ e ∈ es, EntryOk lo hi M e.2
  | [], es, h => by rw [LocDecoder.evalViewArgs] at h; cases h; simp
  | (x, e) :: as, es, h => by
    rw [LocDecoder.evalViewArgs] at h
    obtain ⟨v, h1, h⟩ := Outcome.bind_eq_ok.1 h
    obtain ⟨r, h2, h⟩ := Outcome.bind_eq_ok.1 h
    cases h
    have i1 := evalView_ok hs h1
    have i2 := evalViewArgs_ok hs h2
    intro f hf
    rcases List.mem_cons.1 hf with rfl | hf
    · exact i1
    · exact i2 f hf

theorem captureLoop_within : ∀ n {c : ReadCtxt} {acc vs : List ParsedValue}, c.offset ≤ c.input.length →
    c.input.length ≤ M → (∀ v ∈ acc, v.Within 0 M) → LocDecoder.captureLoop n c.offset c acc = .ok vs →
      (∀ v ∈ vs, v.Within 0 M) ∧ c.offset + n ≤ c.input.length
  | 0, c, acc, vs, hc, _, ha, h => by rw [LocDecoder.captureLoop] at h; cases h; exact ⟨ha, hc⟩
  | n + 1, c, acc, vs, hc, hM, ha, h => by
    rw [LocDecoder.captureLoop] at h
    split at h
    · cases h
    · next b c' hb =>
      obtain ⟨rfl, h1⟩ := readByte_eq hb
      have := captureLoop_within n (c := { c with offset := c.offset + 1 }) h1 hM (fun v hv => by
        rcases List.mem_append.1 hv with hv | hv
        · exact ha v hv
        · rw [List.mem_singleton.1 hv]; exact ⟨Nat.zero_le _, Nat.le_trans h1 hM⟩) h
      exact ⟨this.1, by have := this.2; simp only at this; omega⟩

theorem readBase_within {c c' : ReadCtxt} {k : BaseKind} {v : ParsedValue}
    (hM : c.input.length ≤ M) (h : LocDecoder.readBase c k = .ok (v, c')) :
    v.Within 0 M ∧ c' = { c with offset := c.offset + k.width.bits / 8 } ∧
      c.offset + k.width.bits / 8 ≤ c.input.length := by
  have wide : ∀ (w : Num.BitWidth), (if k.be then
      match c.readBe (w.bits / 8) with
      | none => Outcome.err (LocErr.overrun (w.bits / 8) c.offset)
      | some (n, buf') =>
        if h : n < (UKind.fixed w).card then
          .ok (ParsedValue.newFlat (.num (.fixed w) ⟨n, h⟩) c.offset (w.bits / 8), buf')
        else .panic
    else .panic) = .ok (v, c') → v.Within 0 M ∧ c' = { c with offset := c.offset + w.bits / 8 } ∧
      c.offset + w.bits / 8 ≤ c.input.length := by
    intro w h
    split at h
    · split at h
      · cases h
      · next n b hb =>
        split at h
        · cases h
          unfold ReadCtxt.readBe at hb
          split at hb
          · next hl => cases hb; exact ⟨⟨Nat.zero_le _, Nat.le_trans hl hM⟩, rfl, hl⟩
          · cases hb
        · cases h
    · cases h
  unfold LocDecoder.readBase at h
  cases hw : k.width with
  | b8 =>
    rw [hw] at h
    simp only at h
    split at h
    · cases h
    · next b b' hb =>
      cases h
      obtain ⟨rfl, h1⟩ := readByte_eq hb
      exact ⟨⟨Nat.zero_le _, Nat.le_trans h1 hM⟩, rfl, h1⟩
  | b16 => rw [hw] at h; exact wide .b16 h
  | b32 => rw [hw] at h; exact wide .b32 h
  | b64 => rw [hw] at h; exact wide .b64 h

theorem readArrayLoop_within {k : BaseKind} : ∀ n {c : ReadCtxt} {acc vs : List ParsedValue},
    c.offset ≤ c.input.length → c.input.length ≤ M → (∀ v ∈ acc, v.Within 0 M) →
      LocDecoder.readArrayLoop k n c acc = .ok vs →
      (∀ v ∈ vs, v.Within 0 M) ∧ c.offset + n * (k.width.bits / 8) ≤ c.input.length
  | 0, c, acc, vs, hc, _, ha, h => by
    rw [LocDecoder.readArrayLoop] at h; cases h; exact ⟨ha, by simpa using hc⟩
  | n + 1, c, acc, vs, hc, hM, ha, h => by
    rw [LocDecoder.readArrayLoop] at h
    obtain ⟨⟨v, c'⟩, h1, h⟩ := Outcome.bind_eq_ok.1 h
    obtain ⟨h2, rfl, h3⟩ := readBase_within hM h1
    have := readArrayLoop_within n (c := { c with offset := c.offset + k.width.bits / 8 }) h3 hM (fun v hv => by
      rcases List.mem_append.1 hv with hv | hv
      · exact ha v hv
      · rw [List.mem_singleton.1 hv]; exact h2) h
    refine ⟨this.1, ?_⟩
    have := this.2
    simp only at this
    rw [Nat.succ_mul]
    omega

theorem LocalAll.mem {own : List String} : ∀ {ds : List Decoder}, LocalAll calls own ds = true → ∀ d ∈ ds,
    Local calls own d = true
  | d :: ds, h, x, hx => by
    simp only [LocalAll, Bool.and_eq_true] at h
    rcases List.mem_cons.1 hx with rfl | hx
    · exact h.1
    · exact LocalAll.mem h.2 x hx

theorem TidyAll.mem {own : List String} : ∀ {ds : List Decoder}, TidyAll free calls own ds = true → ∀ d ∈ ds,
    Tidy free calls own d = true
  | d :: ds, h, x, hx => by
    simp only [TidyAll, Bool.and_eq_true] at h
    rcases List.mem_cons.1 hx with rfl | hx
    · exact h.1
    · exact TidyAll.mem h.2 x hx

theorem parallelLoop_ok {p : Decoder → Outcome LocErr LocParsed} {o : Nat} {w : LocParsed} :
    ∀ {ds : List Decoder} {i : Nat}, LocDecoder.parallelLoop p o i ds = .ok w →
      ∃ d ∈ ds, ∃ j w', p d = .ok w' ∧ w = w'.map fun r => (.branch j r.1, r.2)
  | [], i, h => by cases h
  | d :: ds, i, h => by
    rw [LocDecoder.parallelLoop] at h
    split at h
    · next w' h1 => cases h; exact ⟨d, by simp, i, w', h1, rfl⟩
    · obtain ⟨d', h1, h2⟩ := parallelLoop_ok h
      exact ⟨d', by simp [h1], h2⟩
    · cases h
    · cases h

theorem matchLoop_ok {p : List (String × ParsedValue) → Decoder → Outcome LocErr LocParsed} {v : ParsedValue}
    {w : LocParsed} {own : List String} : ∀ {bs : List (Pattern × Decoder)} {i : Nat},
      TidyMatch free calls own bs = true → LocDecoder.matchLoop p v i bs = .ok w →
      ∃ pat d b j w', v.matchesPat pat = some b ∧ p b d = .ok w' ∧ Tidy free calls (without pat.binders own) d = true ∧
        (LocalMatch calls own bs = true → Local calls (without pat.binders own) d = true) ∧
        w = w'.map fun r => (.branch j r.1, r.2)
  | [], i, _, h => by cases h
  | (pat, d) :: bs, i, ht, h => by
    simp only [TidyMatch, Bool.and_eq_true] at ht
    rw [LocDecoder.matchLoop] at h
    split at h
    · next b hb =>
      obtain ⟨w', h1, h⟩ := Outcome.bind_eq_ok.1 h
      cases h
      exact ⟨pat, d, b, i, w', hb, h1, ht.1, fun hl => by
        simp only [LocalMatch, Bool.and_eq_true] at hl; exact hl.1, rfl⟩
    · obtain ⟨p', d', b, j, w', h1, h2, h3, h4, h5⟩ := matchLoop_ok ht.2 h
      exact ⟨p', d', b, j, w', h1, h2, h3, fun hl => by
        simp only [LocalMatch, Bool.and_eq_true] at hl; exact h4 hl.2, h5⟩

/-- What a decoder yields from `c`: a result as in `Post` and, if it says so, located in the field that began
at `S`. -/
structure Result (calls : Nat → Bool) (U : Nat → Nat) (lo : Nat) (own : List String) (d : Decoder) (S : Nat)
    (c : ReadCtxt) (w : LocParsed) : Prop extends Post U lo c w where
  loc : Local calls own d = true → w.value.1.getLoc.Within S w.value.2.offset

theorem parse_within (hC : Caps free U lo M) {env : Env} (henv : TidyEnv free calls env) :
    ∀ (n : Nat) (d : Decoder) (own : List String) (s : LocScope Decoder) (c : ReadCtxt) (S : Nat) (w : LocParsed),
      Tidy free calls own d = true → ScopeOk free calls lo (U c.offset) M s → c.offset ≤ c.input.length →
      c.input.length ≤ M → lo ≤ S → Chain s own S c.offset → LocDecoder.parse env n d s c = .ok w →
      Result calls U lo own d S c w := by
  intro n
  induction n with
  | zero => intro d own s c S w _ _ _ _ _ _ h; cases h
  | succ n ih =>
    intro d own s c S w hd hs hc hM hS hch h
    have hSc : S ≤ c.offset := hch.le
    have hlo : lo ≤ c.offset := Nat.le_trans hS hSc
    have hUc : c.offset ≤ U c.offset := hC.ge _ (Nat.le_trans hc hM)
    -- a decoder started afresh somewhere after `c`
    have good : ∀ d, Tidy free calls [] d = true → Good U lo c (fun c => LocDecoder.parse env n d s c) := by
      intro d hd c' w h1 h2 h3 h4
      exact (ih d [] s c' c'.offset w hd (hs.mono (hC.mono _ _ h2)) (h1 ▸ h3) (h1 ▸ hM)
        (Nat.le_trans hlo h2) (Nat.le_refl _) h4).toPost
    have seq : ∀ {own d} {a : LocDecoder.Acc} {w : LocParsed}, AccOk U lo c a → LocDecoder.finishSeq c.offset a = .ok w →
        Result calls U lo own d S c w := by
      intro own d a w ha h
      have := ha.finish hC hlo hM h
      exact ⟨this.1, fun _ => loc_mono hSc (Nat.le_refl _) this.2⟩
    have stay : ∀ {own d} {v : ParsedValue}, Evald v → Result calls U lo own d S c (.new (v, c)) := by
      intro own d v hv
      exact ⟨⟨rfl, Nat.le_refl _, hc, hv.within⟩, fun _ => by show v.getLoc.Within _ _; rw [hv.getLoc]; trivial⟩
    have unit : ∀ {own d} {o : Nat}, c.offset ≤ o → o ≤ c.input.length →
        Result calls U lo own d S c (.new (.unitSpanning c.offset (o - c.offset), { c with offset := o })) := by
      intro own d o h1 h2
      refine ⟨⟨rfl, h1, h2, span_within hC hlo h1 (Nat.le_trans h2 hM), trivial⟩, fun _ => ⟨hSc, ?_⟩⟩
      show c.offset + (o - c.offset) ≤ o
      omega
    have wrap : ∀ {own d own' d'} {w : LocParsed} {f : ParsedValue → ParsedValue}, Result calls U lo own' d' S c w →
        (∀ v lo hi, v.Within lo hi → (f v).Within lo hi) → (∀ v : ParsedValue, (f v).getLoc = v.getLoc) →
        (Local calls own d = true → Local calls own' d' = true) →
        Result calls U lo own d S c (w.map fun r => (f r.1, r.2)) := by
      intro own d own' d' w f h h1 h2 h3
      exact ⟨⟨h.same, h.fwd, h.inside, h1 _ _ _ h.vals⟩, fun hl => by
        show (f w.value.1).getLoc.Within _ _; rw [h2]; exact h.loc (h3 hl)⟩
    cases d with
    | call k args views =>
      rw [LocDecoder.parse] at h
      obtain ⟨es, h1, h⟩ := Outcome.bind_eq_ok.1 h
      obtain ⟨vs, h2, h⟩ := Outcome.bind_eq_ok.1 h
      obtain ⟨d, h3, h⟩ := Outcome.bind_eq_ok.1 h
      have h3 := unwrap_eq_ok (Outcome.ofPanicky_eq_ok.1 h3)
      have hsc : ScopeOk free calls lo (U c.offset) M (.multi (es ++ vs) .empty) := by
        refine .multi (fun e he => ?_) .empty
        rcases List.mem_append.1 he with he | he
        · exact evalArgs_ok hs hch hS hUc hd h1 e he
        · exact evalViewArgs_ok hs h2 e he
      have r := ih d [] _ c c.offset w (henv.1 d (List.mem_of_getElem? h3)) hsc hc hM hlo (Nat.le_refl _) h
      exact ⟨r.toPost, fun hl => loc_mono hSc (Nat.le_refl _) (r.loc (henv.2.1 k d hl h3))⟩
    | pos => rw [LocDecoder.parse] at h; cases h; exact stay ⟨_, rfl⟩
    | fail => rw [LocDecoder.parse] at h; cases h
    | endOfInput =>
      rw [LocDecoder.parse] at h
      split at h
      · cases h
        have := unit (own := own) (d := .endOfInput) (o := c.offset) (Nat.le_refl _) hc
        rw [Nat.sub_self] at this; exact this
      · cases h
    | align k =>
      rw [LocDecoder.parse] at h
      split at h
      · cases h
      · simp only at h
        obtain ⟨r, h1, h⟩ := Outcome.bind_eq_ok.1 h
        split at h
        · next a b =>
          cases h
          obtain ⟨_, rfl, h2⟩ := splitAt_eq (Outcome.ofPanicky_eq_ok.1 h1)
          have := unit (own := own) (d := .align k) (o := c.offset + (k - c.offset % k) % k) (Nat.le_add_right _ _) h2
          rw [Nat.add_sub_cancel_left] at this; exact this
        · cases h
    | byte bs =>
      rw [LocDecoder.parse] at h
      split at h
      · cases h
      · next b c' hb =>
        obtain ⟨rfl, h1⟩ := readByte_eq hb
        split at h
        · cases h
          refine ⟨⟨rfl, Nat.le_add_right _ 1, h1, hlo, hC.ge _ (Nat.le_trans h1 hM)⟩, fun _ => ⟨hSc, Nat.le_refl _⟩⟩
        · cases h
    | variant l d =>
      rw [LocDecoder.parse] at h
      obtain ⟨w', h1, h⟩ := Outcome.bind_eq_ok.1 h
      cases h
      exact wrap (ih d own s c S w' hd hs hc hM hS hch h1) (fun v _ _ hv => hv) (fun _ => rfl) (fun hl => hl)
    | parallel ds =>
      rw [LocDecoder.parse] at h
      obtain ⟨d, h1, j, w', h2, rfl⟩ := parallelLoop_ok h
      exact wrap (ih d own s c S w' (TidyAll.mem hd d h1) hs hc hM hS hch h2) (fun v _ _ hv => hv) (fun _ => rfl)
        (fun hl => LocalAll.mem hl d h1)
    | branch t ds =>
      rw [LocDecoder.parse] at h
      split at h
      · cases h
      · obtain ⟨d, h1, h⟩ := Outcome.bind_eq_ok.1 h
        obtain ⟨w', h2, h⟩ := Outcome.bind_eq_ok.1 h
        have h1 := List.mem_of_getElem? (unwrap_eq_ok (Outcome.ofPanicky_eq_ok.1 h1))
        cases h
        exact wrap (ih d own s c S w' (TidyAll.mem hd d h1) hs hc hM hS hch h2) (fun v _ _ hv => hv) (fun _ => rfl)
          (fun hl => LocalAll.mem hl d h1)
    | tuple ds =>
      rw [LocDecoder.parse] at h
      obtain ⟨a, h1, h⟩ := Outcome.bind_eq_ok.1 h
      obtain ⟨m, h2, h⟩ := Outcome.bind_eq_ok.1 h
      have := subUsize_eq h2
      subst this
      cases h
      have ha := foldItems_within hC (p := fun d c => LocDecoder.parse env n d s c)
        (fun d hm => good d (TidyAll.mem hd d hm)) (AccOk.start hc) h1
      refine ⟨⟨ha.same, ha.fwd, ha.inside, span_within hC hlo ha.fwd (Nat.le_trans ha.inside hM),
        withinAll_iff.2 ha.vals⟩, fun _ => ⟨hSc, ?_⟩⟩
      have := ha.fwd
      show c.offset + (a.value.2.offset - c.offset) ≤ a.value.2.offset
      omega
    | sequence ds =>
      rw [LocDecoder.parse] at h
      obtain ⟨a, h1, h⟩ := Outcome.bind_eq_ok.1 h
      exact seq (foldItems_within hC (p := fun d c => LocDecoder.parse env n d s c)
        (fun d hm => good d (TidyAll.mem hd d hm)) (AccOk.start hc) h1) h
    | while_ t d =>
      rw [LocDecoder.parse] at h
      obtain ⟨a, h1, h⟩ := Outcome.bind_eq_ok.1 h
      exact seq (whileLoop_within hC (good d hd) t n (AccOk.start hc) h1) h
    | until_ t d =>
      rw [LocDecoder.parse] at h
      obtain ⟨a, h1, h⟩ := Outcome.bind_eq_ok.1 h
      exact seq (untilLoop_within hC (good d hd) t n (AccOk.start hc) h1) h
    | repeatCount e d =>
      rw [LocDecoder.parse] at h
      obtain ⟨k, _, h⟩ := Outcome.bind_eq_ok.1 h
      obtain ⟨a, h1, h⟩ := Outcome.bind_eq_ok.1 h
      exact seq (foldItems_within hC (fun _ _ => good d hd) (AccOk.start hc) h1) h
    | repeatBetween t x y d =>
      rw [LocDecoder.parse] at h
      obtain ⟨_, _, h⟩ := Outcome.bind_eq_ok.1 h
      obtain ⟨_, _, h⟩ := Outcome.bind_eq_ok.1 h
      obtain ⟨a, h1, h⟩ := Outcome.bind_eq_ok.1 h
      exact seq (betweenLoop_within hC (good d hd) t _ _ _ n (AccOk.start hc) h1) h
    | repeatUntilLast e d =>
      rw [LocDecoder.parse] at h
      obtain ⟨a, h1, h⟩ := Outcome.bind_eq_ok.1 h
      exact seq (untilDoneLoop_within hC (good d hd) n (AccOk.start hc) h1) h
    | repeatUntilSeq e d =>
      rw [LocDecoder.parse] at h
      obtain ⟨a, h1, h⟩ := Outcome.bind_eq_ok.1 h
      obtain ⟨m, h2, h⟩ := Outcome.bind_eq_ok.1 h
      have := subUsize_eq h2
      rw [Nat.sub_self] at this
      subst this
      cases h
      have ha := untilDoneLoop_within hC (good d hd) n (AccOk.start hc) h1
      exact ⟨⟨ha.same, ha.fwd, ha.inside, ⟨hlo, Nat.le_trans hUc (hC.mono _ _ ha.fwd)⟩, withinAll_iff.2 ha.vals⟩,
        fun _ => ⟨hSc, ha.fwd⟩⟩
    | forEach e x d =>
      rw [LocDecoder.parse] at h
      simp only [Tidy, Bool.and_eq_true] at hd
      obtain ⟨v, h1, h⟩ := Outcome.bind_eq_ok.1 h
      obtain ⟨q, h2, h⟩ := Outcome.bind_eq_ok.1 h
      obtain ⟨a, h3, h⟩ := Outcome.bind_eq_ok.1 h
      have hv := eval_within hs.vals hch hS hUc e hd.1 (Outcome.ofPanicky_eq_ok.1 h1)
      have h2 := unwrap_eq_ok (Outcome.ofPanicky_eq_ok.1 h2)
      have hq : ∀ v ∈ q.items, v.Within lo (U c.offset) := by
        unfold ParsedValue.getSequence at h2
        split at h2
        · cases h2; exact withinAll_iff.1 hv.2
        · cases h2
          intro v hm
          obtain ⟨i, _, rfl⟩ := List.mem_map.1 hm
          exact ofUsize_within i
        · cases h2
      refine seq (foldItems_within hC (fun v hm => ?_) (AccOk.start hc) h3) h
      intro c' w h1 h2 h3 h4
      exact (ih d [] _ c' c'.offset w hd.2 ((hs.single (hq v hm)).mono (hC.mono _ _ h2)) (h1 ▸ h3) (h1 ▸ hM)
        (Nat.le_trans hlo h2) (Nat.le_refl _) h4).toPost
    | accumUntil x y z d =>
      rw [LocDecoder.parse] at h
      obtain ⟨_, _, h⟩ := Outcome.bind_eq_ok.1 h
      obtain ⟨r, h1, h⟩ := Outcome.bind_eq_ok.1 h
      obtain ⟨m, h2, h⟩ := Outcome.bind_eq_ok.1 h
      have := subUsize_eq h2
      subst this
      cases h
      have ha := accumLoop_within hC (good d hd) n (AccOk.start hc) h1
      have hsp := span_within hC hlo ha.fwd (Nat.le_trans ha.inside hM)
      refine ⟨⟨ha.same, ha.fwd, ha.inside, hsp, fromEvaluated_within _, ⟨hsp, withinAll_iff.2 ha.vals⟩, trivial⟩,
        fun _ => ⟨hSc, ?_⟩⟩
      have := ha.fwd
      show c.offset + (r.2.value.2.offset - c.offset) ≤ r.2.value.2.offset
      omega
    | maybe e d =>
      rw [LocDecoder.parse] at h
      obtain ⟨b, _, h⟩ := Outcome.bind_eq_ok.1 h
      split at h
      · obtain ⟨w', h1, h⟩ := Outcome.bind_eq_ok.1 h
        cases h
        exact wrap (ih d own s c S w' hd hs hc hM hS hch h1) (fun v _ _ hv => hv) (fun _ => rfl) (fun hl => hl)
      · cases h; exact stay ⟨.optNone, rfl⟩
    | liftedSome d =>
      rw [LocDecoder.parse] at h
      obtain ⟨w', h1, h⟩ := Outcome.bind_eq_ok.1 h
      cases h
      exact wrap (ih d own s c S w' hd hs hc hM hS hch h1) (fun v _ _ hv => hv) (fun _ => rfl) (fun hl => hl)
    | peek d =>
      rw [LocDecoder.parse] at h
      simp only [Tidy, Bool.and_eq_true] at hd
      obtain ⟨w', h1, h⟩ := Outcome.bind_eq_ok.1 h
      cases h
      have r := ih d [] s c c.offset w' hd.2 hs hc hM hlo (Nat.le_refl _) h1
      have hu := (hC.free hd.1).2
      exact ⟨⟨rfl, Nat.le_refl _, hc, by
        have := r.vals; rw [hu] at this ⊢; exact this⟩, fun hl => by cases hl⟩
    | peekNot d =>
      rw [LocDecoder.parse] at h
      split at h
      · cases h
      · cases h
        have := unit (own := own) (d := .peekNot d) (o := c.offset) (Nat.le_refl _) hc
        rw [Nat.sub_self] at this; exact this
      · cases h
      · cases h
    | slice e d =>
      rw [LocDecoder.parse] at h
      obtain ⟨k, _, h⟩ := Outcome.bind_eq_ok.1 h
      obtain ⟨r, h1, h⟩ := Outcome.bind_eq_ok.1 h
      split at h
      · cases h
      · next a b =>
        obtain ⟨rfl, rfl, h2⟩ := splitAt_eq (Outcome.ofPanicky_eq_ok.1 h1)
        obtain ⟨w', h3, h⟩ := Outcome.bind_eq_ok.1 h
        cases h
        have hl : (c.input.take (c.offset + k)).length = c.offset + k := by
          rw [List.length_take]; omega
        have r := ih d own s { c with input := c.input.take (c.offset + k) } S w' hd hs
          (by show c.offset ≤ _; rw [hl]; omega) (by rw [hl]; omega) hS hch h3
        have hw : w'.value.2.offset ≤ c.offset + k := by have := r.inside; rw [hl] at this; exact this
        exact ⟨⟨rfl, Nat.le_add_right _ _, h2, within_mono (Nat.le_refl _) (hC.mono _ _ hw) r.vals⟩,
          fun hx => loc_mono (Nat.le_refl _) hw (r.loc hx)⟩
    | bits d => cases hd
    | decodeBytes e d => cases hd
    | withRelativeOffset x y d =>
      rw [LocDecoder.parse] at h
      simp only [Tidy, Bool.and_eq_true] at hd
      obtain ⟨_, _, h⟩ := Outcome.bind_eq_ok.1 h
      obtain ⟨_, _, h⟩ := Outcome.bind_eq_ok.1 h
      obtain ⟨t, _, h⟩ := Outcome.bind_eq_ok.1 h
      have hu := (hC.free hd.1).2
      have hz := (hC.free hd.1).1
      split at h
      · cases h
      · next c' hc' =>
        obtain ⟨w', h1, h⟩ := Outcome.bind_eq_ok.1 h
        cases h
        unfold ReadCtxt.seekTo at hc'
        split at hc'
        · next ht =>
          cases hc'
          have r := ih d [] s { c with offset := t } t w' hd.2 (hs.mono (by rw [hu, hu]; exact Nat.le_refl _)) ht hM
            (by rw [hz]; exact Nat.zero_le _) (Nat.le_refl _) h1
          exact ⟨⟨rfl, Nat.le_refl _, hc, by
            have := r.vals; rw [hu] at this ⊢; exact this⟩, fun hl => by cases hl⟩
        · cases hc'
    | parseFromView v d =>
      rw [LocDecoder.parse] at h
      simp only [Tidy, Bool.and_eq_true] at hd
      obtain ⟨c', h1, h⟩ := Outcome.bind_eq_ok.1 h
      obtain ⟨w', h2, h⟩ := Outcome.bind_eq_ok.1 h
      cases h
      have hu := (hC.free hd.1).2
      have hz := (hC.free hd.1).1
      have hv := evalView_ok hs h1
      have r := ih d [] s c' c'.offset w' hd.2 (hs.mono (by rw [hu, hu]; exact Nat.le_refl _)) hv.1 hv.2
        (by rw [hz]; exact Nat.zero_le _) (Nat.le_refl _) h2
      exact ⟨⟨rfl, Nat.le_refl _, hc, by
        have := r.vals; rw [hu] at this ⊢; exact this⟩, fun hl => by cases hl⟩
    | captureBytes v e =>
      rw [LocDecoder.parse] at h
      obtain ⟨k, _, h⟩ := Outcome.bind_eq_ok.1 h
      obtain ⟨c', h1, h⟩ := Outcome.bind_eq_ok.1 h
      obtain ⟨vs, h2, h⟩ := Outcome.bind_eq_ok.1 h
      cases h
      have hu := (hC.free hd).2
      have hz := (hC.free hd).1
      have hv := evalView_ok hs h1
      have r := captureLoop_within k hv.1 hv.2 (by simp) h2
      refine ⟨⟨rfl, Nat.le_refl _, hc, ?_⟩, fun hl => by cases hl⟩
      rw [hu, hz]
      exact ⟨⟨Nat.zero_le _, Nat.le_trans r.2 hv.2⟩, withinAll_iff.2 r.1⟩
    | readArray v e kind =>
      rw [LocDecoder.parse] at h
      obtain ⟨k, _, h⟩ := Outcome.bind_eq_ok.1 h
      obtain ⟨c', h1, h⟩ := Outcome.bind_eq_ok.1 h
      obtain ⟨vs, h2, h⟩ := Outcome.bind_eq_ok.1 h
      cases h
      have hu := (hC.free hd).2
      have hz := (hC.free hd).1
      have hv := evalView_ok hs h1
      have r := readArrayLoop_within k hv.1 hv.2 (by simp) h2
      refine ⟨⟨rfl, Nat.le_refl _, hc, ?_⟩, fun hl => by cases hl⟩
      rw [hu, hz]
      exact ⟨⟨Nat.zero_le _, Nat.le_trans r.2 hv.2⟩, withinAll_iff.2 r.1⟩
    | reifyView v =>
      rw [LocDecoder.parse] at h
      obtain ⟨c', _, h⟩ := Outcome.bind_eq_ok.1 h
      cases h
      exact stay ⟨_, rfl⟩
    | map d e =>
      rw [LocDecoder.parse] at h
      obtain ⟨w', h1, h⟩ := Outcome.bind_eq_ok.1 h
      obtain ⟨v, _, h⟩ := Outcome.bind_eq_ok.1 h
      cases h
      exact wrap (f := fun x => .mapped x (.inherit x v)) (ih d own s c S w' hd hs hc hM hS hch h1)
        (fun x _ _ hx => ⟨hx, translate_within (getLoc_within hx) (fromEvaluated_within v)⟩) (fun _ => rfl) (fun hl => hl)
    | where_ d e strict =>
      rw [LocDecoder.parse] at h
      obtain ⟨w', h1, h⟩ := Outcome.bind_eq_ok.1 h
      unfold WithErr.joinO at h
      obtain ⟨w2, h2, h⟩ := Outcome.bind_eq_ok.1 h
      cases h
      obtain ⟨b, _, h2⟩ := Outcome.bind_eq_ok.1 h2
      have r := ih d own s c S w' hd hs hc hM hS hch h1
      have hw : w2.value = w'.value := by
        split at h2
        · cases h2; rfl
        · split at h2
          · cases h2
          · cases h2; rfl
      exact ⟨⟨by rw [hw]; exact r.same, by rw [hw]; exact r.fwd, by rw [hw]; exact r.inside, by rw [hw]; exact r.vals⟩,
        fun hl => by rw [hw]; exact r.loc hl⟩
    | compute e =>
      rw [LocDecoder.parse] at h
      obtain ⟨v, h1, h⟩ := Outcome.bind_eq_ok.1 h
      cases h
      have h1 := Outcome.ofPanicky_eq_ok.1 h1
      exact ⟨⟨rfl, Nat.le_refl _, hc, eval_within hs.vals hch hS hUc e hd h1⟩, fun hl => localExpr_loc hch hl h1⟩
    | let_ x e d =>
      rw [LocDecoder.parse] at h
      simp only [Tidy, Bool.and_eq_true] at hd
      obtain ⟨v, h1, h⟩ := Outcome.bind_eq_ok.1 h
      have hv := eval_within hs.vals hch hS hUc e hd.1 (Outcome.ofPanicky_eq_ok.1 h1)
      have r := ih d _ _ c S w hd.2 (hs.single hv) hc hM hS hch.single h
      exact ⟨r.toPost, r.loc⟩
    | match_ e bs =>
      rw [LocDecoder.parse] at h
      simp only [Tidy, Bool.and_eq_true] at hd
      obtain ⟨v, h1, h⟩ := Outcome.bind_eq_ok.1 h
      have hv := eval_within hs.vals hch hS hUc e hd.1 (Outcome.ofPanicky_eq_ok.1 h1)
      obtain ⟨pat, d, b, j, w', h2, h3, h4, h5, rfl⟩ := matchLoop_ok hd.2 h
      have hb := matchesPat_within hv h2
      have hch' : Chain (s.withBindings b) (without pat.binders own) S c.offset := by
        refine hch.filter.congr fun x hx => ?_
        have hx : x ∈ without pat.binders own := hx
        exact getValue_withBindings fun q hq e => mem_without hx (e ▸ (hb q hq).1)
      exact wrap (ih d _ _ c S w' h4 (hs.withBindings fun q hq => (hb q hq).2) hc hM hS hch' h3)
        (fun v _ _ hv => hv) (fun _ => rfl) h5
    | dynamic x ls vs d =>
      rw [LocDecoder.parse] at h
      obtain ⟨_, _, h⟩ := Outcome.bind_eq_ok.1 h
      obtain ⟨f, _, h⟩ := Outcome.bind_eq_ok.1 h
      split at h
      · next dyn h1 =>
        have r := ih d own (.decoder x dyn s) c S w hd (hs.decoder (henv.2.2 f dyn h1)) hc hM hS
          (hch.congr fun y _ => rfl) h
        exact ⟨r.toPost, r.loc⟩
      · cases h
      · cases h
      · cases h
    | apply x =>
      rw [LocDecoder.parse] at h
      obtain ⟨d, h1, h⟩ := Outcome.bind_eq_ok.1 h
      have h1 := hs.decs x d (unwrap_eq_ok (Outcome.ofPanicky_eq_ok.1 h1))
      have r := ih d [] s c c.offset w h1 hs hc hM hlo (Nat.le_refl _) h
      exact ⟨r.toPost, fun hl => by cases hl⟩
    | skipRemainder =>
      rw [LocDecoder.parse] at h
      obtain ⟨m, h2, h⟩ := Outcome.bind_eq_ok.1 h
      have := subUsize_eq h2
      subst this
      cases h
      exact unit hc (Nat.le_refl _)
    | letFormat a x b =>
      rw [LocDecoder.parse] at h
      simp only [Tidy, Bool.and_eq_true] at hd
      obtain ⟨w1, h1, h⟩ := Outcome.bind_eq_ok.1 h
      unfold WithErr.joinO at h
      obtain ⟨w2, h2, h⟩ := Outcome.bind_eq_ok.1 h
      cases h
      have r1 := ih a [] s c c.offset w1 hd.1 hs hc hM hlo (Nat.le_refl _) h1
      have hch' : Chain (.single x w1.value.1 s)
          (if Local calls [] a then x :: without [x] own else without [x] own) S w1.value.2.offset := by
        split
        · next hl => exact hch.bind r1.fwd (r1.loc hl)
        · exact hch.single.mono r1.fwd
      have r2 := ih b _ _ w1.value.2 S w2 hd.2 ((hs.mono (hC.mono _ _ r1.fwd)).single r1.vals)
        (by rw [r1.same]; exact r1.inside) (by rw [r1.same]; exact hM) hS hch' h2
      exact ⟨⟨r2.same.trans r1.same, Nat.le_trans r1.fwd r2.fwd, by have := r2.inside; rw [r1.same] at this; exact this,
        r2.vals⟩, fun hl => r2.loc hl⟩
    | monadSeq a b =>
      rw [LocDecoder.parse] at h
      simp only [Tidy, Bool.and_eq_true] at hd
      obtain ⟨w1, h1, h⟩ := Outcome.bind_eq_ok.1 h
      unfold WithErr.joinO at h
      obtain ⟨w2, h2, h⟩ := Outcome.bind_eq_ok.1 h
      cases h
      have r1 := ih a [] s c c.offset w1 hd.1 hs hc hM hlo (Nat.le_refl _) h1
      have r2 := ih b own s w1.value.2 S w2 hd.2 (hs.mono (hC.mono _ _ r1.fwd))
        (by rw [r1.same]; exact r1.inside) (by rw [r1.same]; exact hM) hS (hch.mono r1.fwd) h2
      exact ⟨⟨r2.same.trans r1.same, Nat.le_trans r1.fwd r2.fwd, by have := r2.inside; rw [r1.same] at this; exact this,
        r2.vals⟩, fun hl => r2.loc hl⟩
    | liftedNone => rw [LocDecoder.parse] at h; cases h; exact stay ⟨_, rfl⟩
    | letView x d =>
      rw [LocDecoder.parse] at h
      have r := ih d own (.view x c s) c S w hd (hs.view ⟨hc, hM⟩) hc hM hS (hch.congr fun y _ => rfl) h
      exact ⟨r.toPost, r.loc⟩
    | phantom => rw [LocDecoder.parse] at h; cases h; exact stay ⟨.phantom, rfl⟩
    | enforce d =>
      rw [LocDecoder.parse] at h
      obtain ⟨w', h1, h⟩ := Outcome.bind_eq_ok.1 h
      have r := ih d own s c S w' hd hs hc hM hS hch h1
      split at h
      · cases h; exact ⟨⟨r.same, r.fwd, r.inside, r.vals⟩, r.loc⟩
      · cases h
    | permit d e =>
      rw [LocDecoder.parse] at h
      simp only [Tidy, Bool.and_eq_true] at hd
      split at h
      · next w' h1 =>
        cases h
        exact wrap (ih d own s c S w' hd.1 hs hc hM hS hch h1) (fun v _ _ hv => hv) (fun _ => rfl)
          (fun hl => by simp only [Local, Bool.and_eq_true] at hl; exact hl.1)
      · obtain ⟨v, h1, h⟩ := Outcome.bind_eq_ok.1 h
        cases h
        have h1 := Outcome.ofPanicky_eq_ok.1 h1
        have i1 := eval_within hs.vals hch hS hUc e hd.2 h1
        refine ⟨⟨rfl, Nat.le_refl _, hc, i1⟩, fun hl => ?_⟩
        simp only [Local, Bool.and_eq_true] at hl
        have i2 := localExpr_loc hch hl.2 h1
        exact i2
      · cases h
      · cases h

end

end Loc
end Doodle
