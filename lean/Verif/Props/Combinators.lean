import Verif.Lemmas.Sound

/-!
Properties C09, C10, C15, C16 and the run-level part of C17: what the decoder compiled for a lookahead,
slice, repetition, ordered choice or tolerant format does, on any input, in any program and scope.
-/

namespace Doodle

open Compiler

set_option linter.unusedSectionVars false

variable [DecidableEq Next]

/-! ### C09 -/

/-- formats that only look at the input, or not even that -/
def Format.looksOnly : Format → Bool
  | .peek _ | .peekNot _ | .withRelativeOffset _ _ _ | .parseFromView _ _ | .decodeBytes _ _
  | .captureBytes _ _ | .readArray _ _ _ | .reifyView _ | .compute _ | .pos | .phantom _ | .liftedNone
  | .endOfInput => true
  | _ => false

/-- Lookahead, parsing elsewhere, computations and the position query leave the position exactly where it
was. -/
theorem C09_stays (m : Module) (o : BuildOpts) (f : Format) (hf : f.looksOnly = true) (next : Next)
    (st st' : CompSt) (d : Decoder) (hd : compileFormat m o f next st = .ok (d, st')) (env : Env) (fuel : Nat)
    (s : Scope Decoder) (c : ReadCtxt) (w : Parsed) (h : Decoder.parse env fuel d s c = .ok w) :
    w.value.2 = c := by
  match fuel, h with
  | 0, h => cases h
  | n + 1, h =>
  cases f <;> simp only [Format.looksOnly, Bool.false_eq_true] at hf
  case peek f =>
    obtain ⟨r, _, hd⟩ := Outcome.bind_eq_ok.1 hd
    cases hd
    simp only [Decoder.parse] at h
    obtain ⟨w1, _, h⟩ := Outcome.bind_eq_ok.1 h
    cases h; rfl
  case peekNot f =>
    obtain ⟨b, _, hd⟩ := Outcome.bind_eq_ok.1 hd
    split at hd
    · obtain ⟨r, _, hd⟩ := Outcome.bind_eq_ok.1 hd
      cases hd
      simp only [Decoder.parse] at h
      split at h <;> cases h
      rfl
    · cases hd
  case withRelativeOffset =>
    obtain ⟨r, _, hd⟩ := Outcome.bind_eq_ok.1 hd
    cases hd
    simp only [Decoder.parse] at h
    obtain ⟨_, _, h⟩ := Outcome.bind_eq_ok.1 h
    obtain ⟨_, _, h⟩ := Outcome.bind_eq_ok.1 h
    obtain ⟨_, _, h⟩ := Outcome.bind_eq_ok.1 h
    split at h
    · cases h
    · obtain ⟨w1, _, h⟩ := Outcome.bind_eq_ok.1 h
      cases h; rfl
  case parseFromView =>
    obtain ⟨r, _, hd⟩ := Outcome.bind_eq_ok.1 hd
    cases hd
    simp only [Decoder.parse] at h
    obtain ⟨_, _, h⟩ := Outcome.bind_eq_ok.1 h
    obtain ⟨w1, _, h⟩ := Outcome.bind_eq_ok.1 h
    cases h; rfl
  case decodeBytes =>
    obtain ⟨r, _, hd⟩ := Outcome.bind_eq_ok.1 hd
    cases hd
    simp only [Decoder.parse] at h
    obtain ⟨_, _, h⟩ := Outcome.bind_eq_ok.1 h
    obtain ⟨_, _, h⟩ := Outcome.bind_eq_ok.1 h
    obtain ⟨w1, _, h⟩ := Outcome.bind_eq_ok.1 h
    simp only [WithErr.joinO] at h
    obtain ⟨w2, h3, h⟩ := Outcome.bind_eq_ok.1 h
    cases h
    split at h3 <;> · cases h3; rfl
  case captureBytes =>
    cases hd
    simp only [Decoder.parse] at h
    obtain ⟨_, _, h⟩ := Outcome.bind_eq_ok.1 h
    obtain ⟨_, _, h⟩ := Outcome.bind_eq_ok.1 h
    obtain ⟨_, _, h⟩ := Outcome.bind_eq_ok.1 h
    cases h; rfl
  case readArray =>
    cases hd
    simp only [Decoder.parse] at h
    obtain ⟨_, _, h⟩ := Outcome.bind_eq_ok.1 h
    obtain ⟨_, _, h⟩ := Outcome.bind_eq_ok.1 h
    obtain ⟨_, _, h⟩ := Outcome.bind_eq_ok.1 h
    cases h; rfl
  case reifyView =>
    cases hd
    simp only [Decoder.parse] at h
    obtain ⟨_, _, h⟩ := Outcome.bind_eq_ok.1 h
    cases h; rfl
  case compute =>
    cases hd
    simp only [Decoder.parse] at h
    obtain ⟨_, _, h⟩ := Outcome.bind_eq_ok.1 h
    cases h; rfl
  case pos => cases hd; cases h; rfl
  case phantom => cases hd; cases h; rfl
  case liftedNone => cases hd; cases h; rfl
  case endOfInput =>
    cases hd
    simp only [Decoder.parse] at h
    split at h
    · cases h; rfl
    · cases h

/-- `Peek` returns what its body returns, with the errors of the body, and fails when the body fails. -/
theorem C09_peek (m : Module) (o : BuildOpts) (f : Format) (next : Next) (st st' : CompSt) (d : Decoder)
    (hd : compileFormat m o (.peek f) next st = .ok (d, st')) :
    ∃ b, compileFormat m o f .empty st = .ok (b, st') ∧ ∀ env fuel s c,
      (∀ w, Decoder.parse env (fuel + 1) d s c = .ok w ↔
        ∃ u, Decoder.parse env fuel b s c = .ok u ∧ w = ⟨(u.value.1, c), u.errs⟩) ∧
      (∀ e, Decoder.parse env (fuel + 1) d s c = .err e ↔ Decoder.parse env fuel b s c = .err e) := by
  obtain ⟨⟨b, st1⟩, h1, hd⟩ := Outcome.bind_eq_ok.1 hd
  cases hd
  refine ⟨b, h1, fun env fuel s c => ?_⟩
  simp only [Decoder.parse]
  cases Decoder.parse env fuel b s c with
  | ok u =>
    refine ⟨fun w => ⟨?_, ?_⟩, fun e => ⟨?_, ?_⟩⟩
    · intro h; cases h; exact ⟨u, rfl, rfl⟩
    · rintro ⟨u', h, rfl⟩; cases h; rfl
    · intro h; cases h
    · intro h; cases h
  | err e =>
    refine ⟨fun w => ⟨?_, ?_⟩, fun e => ⟨?_, ?_⟩⟩
    · intro h; cases h
    · rintro ⟨u', h, rfl⟩; cases h
    · intro h; cases h; rfl
    · intro h; cases h; rfl
  | panic =>
    refine ⟨fun w => ⟨?_, ?_⟩, fun e => ⟨?_, ?_⟩⟩
    · intro h; cases h
    · rintro ⟨u', h, rfl⟩; cases h
    · intro h; cases h
    · intro h; cases h
  | fuel =>
    refine ⟨fun w => ⟨?_, ?_⟩, fun e => ⟨?_, ?_⟩⟩
    · intro h; cases h
    · rintro ⟨u', h, rfl⟩; cases h
    · intro h; cases h
    · intro h; cases h

/-- `PeekNot` succeeds exactly when its body fails, and fails exactly when its body succeeds. -/
theorem C09_peekNot (m : Module) (o : BuildOpts) (f : Format) (next : Next) (st st' : CompSt) (d : Decoder)
    (hd : compileFormat m o (.peekNot f) next st = .ok (d, st')) :
    ∃ b, compileFormat m o f .empty st = .ok (b, st') ∧ ∀ env fuel s c,
      ((∃ w, Decoder.parse env (fuel + 1) d s c = .ok w) ↔ ∃ e, Decoder.parse env fuel b s c = .err e) ∧
      ((∃ e, Decoder.parse env (fuel + 1) d s c = .err e) ↔ ∃ w, Decoder.parse env fuel b s c = .ok w) := by
  obtain ⟨bd, _, hd⟩ := Outcome.bind_eq_ok.1 hd
  split at hd
  · obtain ⟨⟨b, st1⟩, h1, hd⟩ := Outcome.bind_eq_ok.1 hd
    cases hd
    refine ⟨b, h1, fun env fuel s c => ?_⟩
    simp only [Decoder.parse]
    cases Decoder.parse env fuel b s c <;> simp
  · cases hd

/-- A `PeekNot` is compiled exactly when its body compiles and its declared lookahead is at most 1024 bytes. -/
theorem C09_limit (m : Module) (o : BuildOpts) (f : Format) (next : Next) (st : CompSt) :
    (∃ r, compileFormat m o (.peekNot f) next st = .ok r) ↔
      (∃ r, compileFormat m o f .empty st = .ok r) ∧
      ∃ b n, f.lookaheadBounds m = .ok b ∧ b.max = some n ∧ n ≤ 1024 := by
  constructor
  · rintro ⟨r, h⟩
    obtain ⟨b, hb, hd⟩ := Outcome.bind_eq_ok.1 h
    split at hd
    · rename_i ha
      obtain ⟨r1, h1, _⟩ := Outcome.bind_eq_ok.1 hd
      refine ⟨⟨r1, h1⟩, b, ?_⟩
      unfold peekNotAllowed at ha
      split at ha
      · cases ha
      · rename_i n hn
        exact ⟨n, Outcome.ofPanicky_eq_ok.1 hb, hn, of_decide_eq_true ha⟩
    · cases hd
  · rintro ⟨⟨r, hr⟩, b, n, hb, hn, hle⟩
    refine ⟨(.peekNot r.1, r.2), Outcome.bind_eq_ok.2 ⟨b, Outcome.ofPanicky_eq_ok.2 hb, ?_⟩⟩
    have ha : peekNotAllowed b = true := by
      unfold peekNotAllowed
      rw [hn]
      exact decide_eq_true hle
    rw [if_pos ha]
    exact Outcome.bind_eq_ok.2 ⟨r, hr, rfl⟩

/-- A relative-offset parse runs its body at the absolute position `base + offset` of the same window. -/
theorem C09_relative (m : Module) (o : BuildOpts) (x y : Expr) (f : Format) (next : Next) (st st' : CompSt)
    (d : Decoder) (hd : compileFormat m o (.withRelativeOffset x y f) next st = .ok (d, st')) :
    ∃ b, compileFormat m o f .empty st = .ok (b, st') ∧ ∀ env fuel s c w,
      Decoder.parse env (fuel + 1) d s c = .ok w ↔
        ∃ i j u, Decoder.evalUsize x s = .ok i ∧ Decoder.evalUsize y s = .ok j ∧ i + j < usizeCard ∧
          i + j ≤ c.input.length ∧ Decoder.parse env fuel b s ⟨c.input, i + j⟩ = .ok u ∧
          w = ⟨(u.value.1, c), u.errs⟩ := by
  obtain ⟨⟨b, st1⟩, h1, hd⟩ := Outcome.bind_eq_ok.1 hd
  cases hd
  refine ⟨b, h1, fun env fuel s c w => ?_⟩
  simp only [Decoder.parse]
  constructor
  · intro h
    obtain ⟨i, hi, h⟩ := Outcome.bind_eq_ok.1 h
    obtain ⟨j, hj, h⟩ := Outcome.bind_eq_ok.1 h
    obtain ⟨t, ht, h⟩ := Outcome.bind_eq_ok.1 h
    have hi := Outcome.ofPanicky_eq_ok.1 hi
    have hj := Outcome.ofPanicky_eq_ok.1 hj
    have ht := Outcome.ofPanicky_eq_ok.1 ht
    simp only [addUsize] at ht
    split at ht
    · next hlt =>
      cases ht
      split at h
      · cases h
      · next c1 hc1 =>
        simp only [ReadCtxt.seekTo] at hc1
        split at hc1
        · next hle =>
          cases hc1
          obtain ⟨u, hu, h⟩ := Outcome.bind_eq_ok.1 h
          cases h
          exact ⟨i, j, u, hi, hj, hlt, hle, hu, rfl⟩
        · cases hc1
    · cases ht
  · rintro ⟨i, j, u, hi, hj, hlt, hle, hu, rfl⟩
    simp only [hi, hj, Outcome.ofPanicky, addUsize, if_pos hlt, ReadCtxt.seekTo, if_pos hle, hu,
      Outcome.bind_ok, WithErr.map]

example : ∃ (c : ReadCtxt) (w : Parsed),
    Decoder.parse ⟨[], fun _ => .panic⟩ 5
      (.withRelativeOffset (.lit .b8 1) (.lit .b8 1) (.byte (ByteSet.fromIter [7]))) .empty c = .ok w ∧
    c.offset = 0 := ⟨⟨[5, 6, 7], 0⟩, _, rfl, rfl⟩

/-- When `Permit` falls back, the position is the original one, the value is the fallback and the error of
the body is logged; otherwise it returns the body's result.  It never fails. -/
theorem C16_permit (m : Module) (o : BuildOpts) (f : Format) (e : Expr) (next : Next) (st st' : CompSt)
    (d : Decoder) (hd : compileFormat m o (.permit f e) next st = .ok (d, st')) :
    ∃ b, compileFormat m o f next st = .ok (b, st') ∧ ∀ env fuel s c,
      (∀ w, Decoder.parse env (fuel + 1) d s c = .ok w ↔
        (∃ u, Decoder.parse env fuel b s c = .ok u ∧ w = ⟨(.permitOk u.value.1, u.value.2), u.errs⟩) ∨
        (∃ err v, Decoder.parse env fuel b s c = .err err ∧ e.evalValue s = .ok v ∧
          w = ⟨(.permitErr v, c), [err]⟩)) ∧
      (∀ err, Decoder.parse env (fuel + 1) d s c ≠ .err err) := by
  obtain ⟨⟨b, st1⟩, h1, hd⟩ := Outcome.bind_eq_ok.1 hd
  cases hd
  refine ⟨b, h1, fun env fuel s c => ?_⟩
  simp only [Decoder.parse]
  cases Decoder.parse env fuel b s c with
  | ok u =>
    constructor
    · intro w
      constructor
      · intro h; cases h; exact .inl ⟨u, rfl, rfl⟩
      · rintro (⟨u', h, rfl⟩ | ⟨err, v, h, _⟩)
        · cases h; rfl
        · cases h
    · intro err h; cases h
  | err err =>
    cases hv : e.evalValue s with
    | ok v =>
      constructor
      · intro w
        constructor
        · intro h; cases h; exact .inr ⟨err, v, rfl, rfl, rfl⟩
        · rintro (⟨u', h, rfl⟩ | ⟨err, v, h, hv, rfl⟩)
          · cases h
          · cases h; cases hv; rfl
      · intro err h; cases h
    | panic =>
      constructor
      · intro w
        constructor
        · intro h; cases h
        · rintro (⟨u', h, rfl⟩ | ⟨err, v, h, hv, rfl⟩)
          · cases h
          · cases hv
      · intro err h; cases h
  | panic =>
    constructor
    · intro w
      constructor
      · intro h; cases h
      · rintro (⟨u', h, rfl⟩ | ⟨err, v, h, hv, rfl⟩)
        · cases h
        · cases h
    · intro err h; cases h
  | fuel =>
    constructor
    · intro w
      constructor
      · intro h; cases h
      · rintro (⟨u', h, rfl⟩ | ⟨err, v, h, hv, rfl⟩)
        · cases h
        · cases h
    · intro err h; cases h

private theorem compileAll_length {m : Module} {o : BuildOpts} {fs : List Format} {next : Next} {st st' : CompSt}
    {ds : List Decoder} (h : compileAll m o fs next st = .ok (ds, st')) : ds.length = fs.length := by
  induction fs generalizing st ds with
  | nil => cases h; rfl
  | cons f fs ih =>
    simp only [compileAll] at h
    obtain ⟨r, _, h⟩ := Outcome.bind_eq_ok.1 h
    obtain ⟨⟨q, st2⟩, h2, h⟩ := Outcome.bind_eq_ok.1 h
    cases h
    simp [ih h2]

private theorem parallel_ok (p : Decoder → Outcome DecodeErr Parsed) (off ix : Nat) (ds : List Decoder) (w : Parsed) :
    Decoder.parallelLoop p off ix ds = .ok w ↔
      ∃ i d u, ds[i]? = some d ∧ p d = .ok u ∧ (∀ j < i, ∀ g, ds[j]? = some g → ∃ e, p g = .err e) ∧
        w = ⟨(.branch (ix + i) u.value.1, u.value.2), u.errs⟩ := by
  induction ds generalizing ix with
  | nil =>
    simp only [Decoder.parallelLoop]
    constructor
    · intro h; cases h
    · rintro ⟨i, d, u, h, _⟩; simp at h
  | cons d ds ih =>
    simp only [Decoder.parallelLoop]
    constructor
    · intro h
      split at h
      · next u hu =>
        cases h
        exact ⟨0, d, u, rfl, hu, fun j hj => absurd hj (Nat.not_lt_zero _), rfl⟩
      · next e he =>
        obtain ⟨i, g, u, h1, h2, h3, h4⟩ := (ih (ix + 1)).1 h
        refine ⟨i + 1, g, u, h1, h2, ?_, by rw [h4]; congr 3; omega⟩
        intro j hj g' hg'
        cases j with
        | zero => cases hg'; exact ⟨e, he⟩
        | succ j => exact h3 j (by omega) g' hg'
      · cases h
      · cases h
    · rintro ⟨i, g, u, h1, h2, h3, rfl⟩
      cases i with
      | zero =>
        cases h1
        rw [h2]; rfl
      | succ i =>
        obtain ⟨e, he⟩ := h3 0 (Nat.zero_lt_succ _) d rfl
        rw [he]
        refine (ih (ix + 1)).2 ⟨i, g, u, h1, h2, ?_, by congr 3; omega⟩
        intro j hj g' hg'
        exact h3 (j + 1) (by omega) g' hg'

private theorem parallel_err (p : Decoder → Outcome DecodeErr Parsed) (off ix : Nat) (ds : List Decoder) :
    (∃ e, Decoder.parallelLoop p off ix ds = .err e) ↔ ∀ d ∈ ds, ∃ e, p d = .err e := by
  induction ds generalizing ix with
  | nil => exact ⟨fun _ d hd => (nomatch hd), fun _ => ⟨_, rfl⟩⟩
  | cons d ds ih =>
    simp only [Decoder.parallelLoop]
    cases hd : p d with
    | ok u => simp [hd]
    | err e => simpa [hd] using ih (ix + 1)
    | panic => simp [hd]
    | fuel => simp [hd]

/-- Alternatives of `UnionNondet` are tried in order from the start position: the result is that of the
first one which succeeds, all before it having failed, tagged with its index; it fails exactly when all
fail. -/
theorem C16_unionNondet (m : Module) (o : BuildOpts) (fs : List Format) (next : Next) (st st' : CompSt)
    (d : Decoder) (hd : compileFormat m o (.unionNondet fs) next st = .ok (d, st')) :
    ∃ bs, compileAll m o fs next st = .ok (bs, st') ∧ bs.length = fs.length ∧ ∀ env fuel s c,
      (∀ w, Decoder.parse env (fuel + 1) d s c = .ok w ↔
        ∃ i b u, bs[i]? = some b ∧ Decoder.parse env fuel b s c = .ok u ∧
          (∀ j < i, ∀ b', bs[j]? = some b' → ∃ e, Decoder.parse env fuel b' s c = .err e) ∧
          w = ⟨(.branch i u.value.1, u.value.2), u.errs⟩) ∧
      ((∃ e, Decoder.parse env (fuel + 1) d s c = .err e) ↔
        ∀ b ∈ bs, ∃ e, Decoder.parse env fuel b s c = .err e) := by
  obtain ⟨⟨bs, st1⟩, h1, hd⟩ := Outcome.bind_eq_ok.1 hd
  cases hd
  refine ⟨bs, h1, compileAll_length h1, fun env fuel s c => ?_⟩
  simp only [Decoder.parse]
  refine ⟨fun w => ?_, parallel_err _ _ _ _⟩
  have := parallel_ok (fun d => Decoder.parse env fuel d s c) c.offset 0 bs w
  simpa only [Nat.zero_add] using this

example : ∃ d st, compileFormat .empty ⟨fun _ l => l, 5⟩
    (.unionNondet [.byte (ByteSet.fromIter [1]), .permit (.byte (ByteSet.fromIter [2])) (.bool true)]) .empty new =
      .ok (d, st) ∧ ∃ w, Decoder.parse ⟨[], fun _ => .panic⟩ 5 d .empty ⟨[9], 0⟩ = .ok w ∧
      w.value = (.branch 1 (.permitErr (.bool true)), ⟨[9], 0⟩) := ⟨_, _, rfl, _, rfl, rfl⟩

/-! ### C10 -/

/-- what is visible of a result apart from the buffer it points into -/
def Parsed.seen (r : Outcome DecodeErr Parsed) : Outcome DecodeErr (Value × Nat × List DecodeErr) :=
  match r with
  | .ok w => .ok (w.value.1, w.value.2.offset, w.errs)
  | .err e => .err e
  | .panic => .panic
  | .fuel => .fuel

/-- A slice of size `n` with fewer than `n` bytes left fails; otherwise, on success exactly `n` bytes of
the same buffer are consumed. -/
theorem C10_exact (m : Module) (o : BuildOpts) (e : Expr) (f : Format) (next : Next) (st st' : CompSt)
    (d : Decoder) (hd : compileFormat m o (.slice e f) next st = .ok (d, st')) (env : Env) (fuel : Nat)
    (s : Scope Decoder) (c : ReadCtxt) (n : Nat) (hn : Decoder.evalUsize e s = .ok n) :
    (∀ w, Decoder.parse env fuel d s c = .ok w →
      c.offset + n ≤ c.input.length ∧ w.value.2 = ⟨c.input, c.offset + n⟩) ∧
    (c.input.length < c.offset + n → c.offset + n < usizeCard → 0 < fuel →
      ∃ e, Decoder.parse env fuel d s c = .err e) := by
  obtain ⟨⟨b, st1⟩, h1, hd⟩ := Outcome.bind_eq_ok.1 hd
  cases hd
  cases fuel with
  | zero => exact ⟨fun w h => (nomatch h), fun _ _ h => absurd h (Nat.lt_irrefl _)⟩
  | succ k =>
    simp only [Decoder.parse, hn, Outcome.ofPanicky, Outcome.bind_ok, ReadCtxt.splitAt, addUsize]
    by_cases hlt : c.offset + n < usizeCard
    · rw [if_pos hlt]
      by_cases hle : c.offset + n ≤ c.input.length
      · simp only [if_pos hle, Outcome.bind_ok]
        refine ⟨fun w h => ?_, fun h => absurd hle (Nat.not_le.2 h)⟩
        obtain ⟨w1, _, h⟩ := Outcome.bind_eq_ok.1 h
        cases h
        exact ⟨hle, rfl⟩
      · simp only [if_neg hle, Outcome.bind_ok]
        exact ⟨fun w h => (nomatch h), fun _ _ _ => ⟨_, rfl⟩⟩
    · rw [if_neg hlt]
      exact ⟨fun w h => (nomatch h), fun _ h => absurd h hlt⟩

/-- The outcome of a slice does not depend on any byte at or after its end: on two inputs that agree up to
there, values, errors, positions, failures, panics and non-termination are the same. -/
theorem C10_confined (m : Module) (o : BuildOpts) (e : Expr) (f : Format) (next : Next) (st st' : CompSt)
    (d : Decoder) (hd : compileFormat m o (.slice e f) next st = .ok (d, st')) (env : Env) (fuel : Nat)
    (s : Scope Decoder) (c₁ c₂ : ReadCtxt) (n : Nat) (hn : Decoder.evalUsize e s = .ok n)
    (ho : c₁.offset = c₂.offset) (h₁ : c₁.offset + n ≤ c₁.input.length) (h₂ : c₂.offset + n ≤ c₂.input.length)
    (hagree : c₁.input.take (c₁.offset + n) = c₂.input.take (c₁.offset + n)) :
    Parsed.seen (Decoder.parse env fuel d s c₁) = Parsed.seen (Decoder.parse env fuel d s c₂) := by
  obtain ⟨⟨b, st1⟩, h1, hd⟩ := Outcome.bind_eq_ok.1 hd
  cases hd
  cases fuel with
  | zero => rfl
  | succ k =>
    obtain ⟨i1, o1⟩ := c₁
    obtain ⟨i2, o2⟩ := c₂
    dsimp only at ho h₁ h₂ hagree
    subst ho
    simp only [Decoder.parse, hn, Outcome.ofPanicky, Outcome.bind_ok, ReadCtxt.splitAt, addUsize]
    by_cases hlt : o1 + n < usizeCard
    · simp only [if_pos hlt, if_pos h₁, if_pos h₂, Outcome.bind_ok, hagree]
      cases Decoder.parse env k b s ⟨i2.take (o1 + n), o1⟩ <;> rfl
    · simp only [if_neg hlt]

omit [DecidableEq Next] in
/-- The window of a nested slice ends no later than the window it is in: the body of the inner one runs on
a prefix of the buffer the body of the outer one runs on. -/
theorem C10_nested (c head tail head' tail' : ReadCtxt) (n k : Nat) (h : c.splitAt n = .ok (some (head, tail)))
    (h' : head.splitAt k = .ok (some (head', tail'))) :
    head'.input = c.input.take (c.offset + k) ∧ k ≤ n := by
  obtain ⟨h1, rfl, rfl⟩ := Sound.splitAt_some h
  obtain ⟨h2, rfl, rfl⟩ := Sound.splitAt_some h'
  simp only [List.length_take] at h2
  refine ⟨?_, by omega⟩
  simp only [List.take_take]
  congr 1
  omega

example : ∃ d st w, compileFormat .empty ⟨fun _ l => l, 5⟩
    (.slice (.lit .b8 2) (.byte (ByteSet.fromIter [1]))) .empty new = .ok (d, st) ∧
    Decoder.parse ⟨[], fun _ => .panic⟩ 5 d .empty ⟨[1, 2, 3], 0⟩ = .ok w ∧ w.value.2.offset = 2 :=
  ⟨_, _, _, rfl, rfl, rfl⟩

/-! ### C15 -/

/-- `p` applied over and over from `c`, each time to the rest left by the time before: the values in order,
the final rest, and the errors logged (latest first). -/
inductive Chain (p : ReadCtxt → Outcome DecodeErr Parsed) :
    ReadCtxt → List Value → ReadCtxt → List DecodeErr → Prop
  | nil {c} : Chain p c [] c []
  | cons {c w vs c' es} : p c = .ok w → Chain p w.value.2 vs c' es →
      Chain p c (w.value.1 :: vs) c' (es ++ w.errs)

private theorem foldMany_iff (p : ReadCtxt → Outcome DecodeErr Parsed) (n : Nat) (acc acc' : Decoder.Acc) :
    Decoder.foldItems (fun (_ : Unit) c => p c) (List.replicate n ()) acc = .ok acc' ↔
      ∃ vs c' es, Chain p acc.value.2 vs c' es ∧ vs.length = n ∧
        acc' = ⟨(acc.value.1 ++ vs, c'), es ++ acc.errs⟩ := by
  induction n generalizing acc with
  | zero =>
    simp only [List.replicate_zero, Decoder.foldItems]
    constructor
    · intro h; cases h; exact ⟨[], _, [], .nil, rfl, by simp⟩
    · rintro ⟨vs, c', es, hc, hl, rfl⟩
      cases List.eq_nil_of_length_eq_zero hl
      cases hc
      simp
  | succ n ih =>
    simp only [List.replicate_succ, Decoder.foldItems]
    constructor
    · intro h
      obtain ⟨w, h1, h⟩ := Outcome.bind_eq_ok.1 h
      obtain ⟨vs, c', es, hc, hl, rfl⟩ := (ih _).1 h
      exact ⟨_, c', _, .cons h1 hc, by simp [hl], by simp [Decoder.push]⟩
    · rintro ⟨vs, c', es, hc, hl, rfl⟩
      cases hc with
      | nil => cases hl
      | @cons _ w vs _ es h1 hc =>
        rw [h1]
        exact (ih _).2 ⟨vs, c', es, hc, by simpa using hl, by simp [Decoder.push]⟩

/-- `RepeatCount` with count `n` succeeds exactly when its body succeeds `n` times in a row, and returns
those `n` elements. -/
theorem C15_count (m : Module) (o : BuildOpts) (e : Expr) (f : Format) (next : Next) (st st' : CompSt)
    (d : Decoder) (hd : compileFormat m o (.repeatCount e f) next st = .ok (d, st')) :
    ∃ b, compileFormat m o f (.repeat_ f next) st = .ok (b, st') ∧ ∀ env fuel s c w n,
      Decoder.evalUsize e s = .ok n →
      (Decoder.parse env (fuel + 1) d s c = .ok w ↔
        ∃ vs c' es, Chain (Decoder.parse env fuel b s) c vs c' es ∧ vs.length = n ∧
          w = ⟨(.seq (.strict vs), c'), es⟩) := by
  obtain ⟨⟨b, st1⟩, h1, hd⟩ := Outcome.bind_eq_ok.1 hd
  cases hd
  refine ⟨b, h1, fun env fuel s c w n hn => ?_⟩
  simp only [Decoder.parse, hn, Outcome.ofPanicky, Outcome.bind_ok]
  constructor
  · intro h
    obtain ⟨acc, h2, h⟩ := Outcome.bind_eq_ok.1 h
    cases h
    obtain ⟨vs, c', es, hc, hl, rfl⟩ := (foldMany_iff _ n _ _).1 h2
    exact ⟨vs, c', es, hc, hl, by simp [WithErr.new, WithErr.map]⟩
  · rintro ⟨vs, c', es, hc, hl, rfl⟩
    exact Outcome.bind_eq_ok.2 ⟨_, (foldMany_iff _ n _ _).2 ⟨vs, c', es, hc, hl, rfl⟩, by simp [WithErr.new, WithErr.map]⟩

private theorem untilDone_iff (done : Value → List Value → Panicky Bool) (p : ReadCtxt → Outcome DecodeErr Parsed)
    (n : Nat) (acc acc' : Decoder.Acc) :
    Decoder.untilDoneLoop done p n acc = .ok acc' ↔
      ∃ init last c' es, Chain p acc.value.2 (init ++ [last]) c' es ∧ init.length < n ∧
        done last (acc.value.1 ++ init ++ [last]) = .ok true ∧
        (∀ i v, init[i]? = some v → done v (acc.value.1 ++ init.take (i + 1)) = .ok false) ∧
        acc' = ⟨(acc.value.1 ++ init ++ [last], c'), es ++ acc.errs⟩ := by
  induction n generalizing acc with
  | zero =>
    simp only [Decoder.untilDoneLoop]
    constructor
    · intro h; cases h
    · rintro ⟨_, _, _, _, _, h, _⟩; exact absurd h (Nat.not_lt_zero _)
  | succ n ih =>
    simp only [Decoder.untilDoneLoop]
    constructor
    · intro h
      obtain ⟨w, h1, h⟩ := Outcome.bind_eq_ok.1 h
      obtain ⟨b, h2, h⟩ := Outcome.bind_eq_ok.1 h
      have h2 := Outcome.ofPanicky_eq_ok.1 h2
      cases b with
      | true =>
        cases h
        exact ⟨[], w.value.1, w.value.2, w.errs, .cons (es := []) h1 .nil, Nat.succ_pos _, by simpa using h2,
          fun i v hv => by simp at hv, by simp [Decoder.push]⟩
      | false =>
        obtain ⟨init, last, c', es, hc, hl, hd, hf, rfl⟩ := (ih _).1 h
        refine ⟨w.value.1 :: init, last, c', es ++ w.errs, .cons h1 hc, by simpa using hl,
          by simpa [Decoder.push] using hd, ?_, by simp [Decoder.push]⟩
        intro i v hv
        cases i with
        | zero => simp at hv; subst hv; simpa using h2
        | succ i => simpa [Decoder.push] using hf i v (by simpa using hv)
    · rintro ⟨init, last, c', es, hc, hl, hd, hf, rfl⟩
      cases init with
      | nil =>
        cases hc with
        | @cons _ w vs _ es h1 hc =>
          cases hc
          have hd' : done w.value.1 (acc.value.1 ++ [w.value.1]) = .ok true := by simpa using hd
          simp [h1, hd', Outcome.ofPanicky, Decoder.push]
      | cons v init =>
        cases hc with
        | @cons _ w vs _ es h1 hc =>
          have hf' : done w.value.1 (acc.value.1 ++ [w.value.1]) = .ok false := by simpa using hf 0 _ rfl
          simp only [h1, hf', Outcome.ofPanicky, Outcome.bind_ok, Bool.false_eq_true, if_false]
          refine (ih _).2 ⟨init, last, c', es, hc, by simpa using hl, by simpa [Decoder.push] using hd, ?_,
            by simp [Decoder.push]⟩
          intro i v hv
          simpa [Decoder.push] using hf (i + 1) v (by simpa using hv)

/-- `RepeatUntilLast` returns the elements up to and including the first one that satisfies the condition:
it succeeds (within the step bound) exactly when there is such a run of the body. -/
theorem C15_untilLast (m : Module) (o : BuildOpts) (e : Expr) (f : Format) (next : Next) (st st' : CompSt)
    (d : Decoder) (hd : compileFormat m o (.repeatUntilLast e f) next st = .ok (d, st')) :
    ∃ b, compileFormat m o f (.repeat_ f next) st = .ok (b, st') ∧ ∀ env fuel s c w,
      Decoder.parse env (fuel + 1) d s c = .ok w ↔
        ∃ init last c' es, Chain (Decoder.parse env fuel b s) c (init ++ [last]) c' es ∧ init.length < fuel ∧
          e.evalLambda s last = .ok (.bool true) ∧ (∀ v ∈ init, e.evalLambda s v = .ok (.bool false)) ∧
          w = ⟨(.seq (.strict (init ++ [last])), c'), es⟩ := by
  obtain ⟨⟨b, st1⟩, h1, hd⟩ := Outcome.bind_eq_ok.1 hd
  cases hd
  refine ⟨b, h1, fun env fuel s c w => ?_⟩
  have hb : ∀ v x, Decoder.lambdaBool e s v = .ok x ↔ e.evalLambda s v = .ok (.bool x) := by
    intro v x
    simp only [Decoder.lambdaBool]
    rw [Panicky.bind_eq_ok]
    constructor
    · rintro ⟨y, hy, h⟩; rw [Sound.unwrapBool_eq h] at hy; exact hy
    · intro h; exact ⟨_, h, rfl⟩
  simp only [Decoder.parse]
  constructor
  · intro h
    obtain ⟨acc, h2, h⟩ := Outcome.bind_eq_ok.1 h
    cases h
    obtain ⟨init, last, c', es, hc, hl, h3, h4, rfl⟩ := (untilDone_iff _ _ fuel _ _).1 h2
    refine ⟨init, last, c', es, hc, hl, (hb _ _).1 h3, ?_, by simp [WithErr.new, WithErr.map]⟩
    intro v hv
    obtain ⟨i, hi⟩ := List.getElem?_of_mem hv
    exact (hb _ _).1 (h4 i v hi)
  · rintro ⟨init, last, c', es, hc, hl, h3, h4, rfl⟩
    refine Outcome.bind_eq_ok.2 ⟨_, (untilDone_iff _ _ fuel _ _).2 ⟨init, last, c', es, hc, hl, (hb _ _).2 h3, ?_, rfl⟩,
      by simp [WithErr.new, WithErr.map]⟩
    intro i v hv
    exact (hb _ _).2 (h4 v (List.mem_of_getElem? hv))

/-- `RepeatUntilSeq` returns the shortest non-empty run of elements that, as a whole, satisfies the
condition. -/
theorem C15_untilSeq (m : Module) (o : BuildOpts) (e : Expr) (f : Format) (next : Next) (st st' : CompSt)
    (d : Decoder) (hd : compileFormat m o (.repeatUntilSeq e f) next st = .ok (d, st')) :
    ∃ b, compileFormat m o f (.repeat_ f next) st = .ok (b, st') ∧ ∀ env fuel s c w,
      Decoder.parse env (fuel + 1) d s c = .ok w ↔
        ∃ vs c' es, Chain (Decoder.parse env fuel b s) c vs c' es ∧ 0 < vs.length ∧ vs.length ≤ fuel ∧
          e.evalLambda s (.seq (.strict vs)) = .ok (.bool true) ∧
          (∀ n, 0 < n → n < vs.length → e.evalLambda s (.seq (.strict (vs.take n))) = .ok (.bool false)) ∧
          w = ⟨(.seq (.strict vs), c'), es⟩ := by
  obtain ⟨⟨b, st1⟩, h1, hd⟩ := Outcome.bind_eq_ok.1 hd
  cases hd
  refine ⟨b, h1, fun env fuel s c w => ?_⟩
  have hb : ∀ v x, Decoder.lambdaBool e s v = .ok x ↔ e.evalLambda s v = .ok (.bool x) := by
    intro v x
    simp only [Decoder.lambdaBool]
    rw [Panicky.bind_eq_ok]
    constructor
    · rintro ⟨y, hy, h⟩; rw [Sound.unwrapBool_eq h] at hy; exact hy
    · intro h; exact ⟨_, h, rfl⟩
  simp only [Decoder.parse]
  constructor
  · intro h
    obtain ⟨acc, h2, h⟩ := Outcome.bind_eq_ok.1 h
    cases h
    obtain ⟨init, last, c', es, hc, hl, h3, h4, rfl⟩ := (untilDone_iff _ _ fuel _ _).1 h2
    refine ⟨init ++ [last], c', es, hc, by simp, by simp; omega, by simpa [WithErr.new] using (hb _ _).1 h3, ?_,
      by simp [WithErr.new, WithErr.map]⟩
    intro n h0 hn
    obtain ⟨i, rfl⟩ : ∃ i, n = i + 1 := ⟨n - 1, by omega⟩
    have hi : i < init.length := by simp at hn; omega
    have := (hb _ _).1 (h4 i init[i] (by simp [hi]))
    rw [List.take_append_of_le_length (by omega)]
    simpa [WithErr.new] using this
  · rintro ⟨vs, c', es, hc, h0, hl, h3, h4, rfl⟩
    obtain ⟨init, last, rfl⟩ : ∃ init last, vs = init ++ [last] :=
      ⟨vs.dropLast, vs.getLast (by intro h; simp [h] at h0), (List.dropLast_concat_getLast _).symm⟩
    refine Outcome.bind_eq_ok.2 ⟨_, (untilDone_iff _ _ fuel _ _).2 ⟨init, last, c', es, hc, by simp at hl; omega,
      (hb _ _).2 (by simpa [WithErr.new] using h3), ?_, rfl⟩, by simp [WithErr.new, WithErr.map]⟩
    intro i v hv
    have hi : i < init.length := (List.getElem?_eq_some_iff.1 hv).1
    have := h4 (i + 1) (by omega) (by simp; omega)
    rw [List.take_append_of_le_length (by omega)] at this
    exact (hb _ _).2 (by simpa [WithErr.new] using this)

private theorem between_ok {t : MatchTree} {lo hi : Nat} {start : ReadCtxt} {p : ReadCtxt → Outcome DecodeErr Parsed}
    {n : Nat} {acc acc' : Decoder.Acc} (h : Decoder.betweenLoop t lo hi start p n acc = .ok acc') :
    ∃ vs c' es, Chain p acc.value.2 vs c' es ∧ acc' = ⟨(acc.value.1 ++ vs, c'), es ++ acc.errs⟩ ∧
      lo ≤ acc'.value.1.length ∧ (vs = [] ∨ acc'.value.1.length = hi) := by
  induction n generalizing acc with
  | zero => cases h
  | succ n ih =>
    simp only [Decoder.betweenLoop] at h
    split at h
    · cases h
    · next ix hix =>
      split at h
      · next hc =>
        split at h
        · cases h
        · next hlo =>
          cases h
          exact ⟨[], _, [], .nil, by simp, Nat.not_lt.1 hlo, .inl rfl⟩
      · next hc =>
        obtain ⟨w, h1, h⟩ := Outcome.bind_eq_ok.1 h
        obtain ⟨vs, c', es, h2, h3, h4, h5⟩ := ih h
        refine ⟨_, c', _, .cons h1 h2, by simpa [Decoder.push] using h3, h4, ?_⟩
        rcases h5 with rfl | h5
        · right
          cases h2
          have h6 : ix ≠ 0 := fun h0 => hc (.inl h0)
          match n, h with
          | n + 1, h =>
            simp only [Decoder.betweenLoop, hix] at h
            split at h
            · next hc' =>
              rcases hc' with h0 | h0
              · exact absurd h0 h6
              · rw [h3]; simpa [Decoder.push] using h0
            · obtain ⟨w2, hw, h⟩ := Outcome.bind_eq_ok.1 h
              have := between_len h
              rw [h3] at this
              simp [Decoder.push] at this
        · exact .inr h5
where
  between_len {n : Nat} {acc acc' : Decoder.Acc} (h : Decoder.betweenLoop t lo hi start p n acc = .ok acc') :
      acc.value.1.length ≤ acc'.value.1.length := by
    induction n generalizing acc with
    | zero => cases h
    | succ n ih =>
      simp only [Decoder.betweenLoop] at h
      split at h
      · cases h
      · split at h
        · split at h
          · cases h
          · cases h; exact Nat.le_refl _
        · obtain ⟨w, h1, h⟩ := Outcome.bind_eq_ok.1 h
          have := ih h
          simp [Decoder.push] at this
          omega

/-- `RepeatBetween(lo, hi)`: on success between `lo` and `hi` consecutive elements are returned.  In fact
the number is 0 or `hi`: the decoder never stops in between (see `C15_between_refuted`). -/
theorem C15_between_partial (m : Module) (o : BuildOpts) (x y : Expr) (f : Format) (next : Next)
    (st st' : CompSt) (d : Decoder) (hd : compileFormat m o (.repeatBetween x y f) next st = .ok (d, st')) :
    ∃ b next', compileFormat m o f next' st = .ok (b, st') ∧ ∀ env fuel s c w lo hi,
      Decoder.evalUsize x s = .ok lo → Decoder.evalUsize y s = .ok hi →
      Decoder.parse env (fuel + 1) d s c = .ok w →
        ∃ vs c' es, Chain (Decoder.parse env fuel b s) c vs c' es ∧ w = ⟨(.seq (.strict vs), c'), es⟩ ∧
          lo ≤ vs.length ∧ vs.length ≤ hi ∧ (vs.length = 0 ∨ vs.length = hi) := by
  obtain ⟨b1, _, hd⟩ := Outcome.bind_eq_ok.1 hd
  obtain ⟨mn, _, hd⟩ := Outcome.bind_eq_ok.1 hd
  obtain ⟨b2, _, hd⟩ := Outcome.bind_eq_ok.1 hd
  obtain ⟨mx, _, hd⟩ := Outcome.bind_eq_ok.1 hd
  obtain ⟨⟨b, st1⟩, h1, hd⟩ := Outcome.bind_eq_ok.1 hd
  obtain ⟨t1, _, hd⟩ := Outcome.bind_eq_ok.1 hd
  obtain ⟨t, _, hd⟩ := Outcome.bind_eq_ok.1 hd
  cases hd
  refine ⟨b, _, h1, fun env fuel s c w lo hi hlo hhi h => ?_⟩
  simp only [Decoder.parse, hlo, hhi, Outcome.ofPanicky, Outcome.bind_ok] at h
  obtain ⟨acc, h2, h⟩ := Outcome.bind_eq_ok.1 h
  cases h
  obtain ⟨vs, c', es, h3, rfl, h4, h5⟩ := between_ok h2
  simp only [WithErr.new, List.nil_append] at h4 h5 h3
  refine ⟨vs, c', es, h3, by simp [WithErr.new, WithErr.map], h4, ?_, ?_⟩
  · rcases h5 with rfl | h5
    · exact Nat.zero_le _
    · omega
  · rcases h5 with rfl | h5
    · exact .inl rfl
    · exact .inr h5

omit [DecidableEq Next] in
/-- The rest of the claim fails: between 0 and 2 times the byte 1, on an input holding exactly one byte 1.
The single element can be parsed and nothing is left, yet decoding fails. -/
theorem C15_between_refuted : ∃ (_ : DecidableEq Next) (d : Decoder) (st : CompSt),
    compileFormat .empty ⟨fun _ l => l, 9⟩ (.repeatBetween (.lit .b8 0) (.lit .b8 2) (.byte (ByteSet.fromIter [1])))
      .empty new = .ok (d, st) ∧
    ∃ e, Decoder.parse ⟨[], fun _ => .panic⟩ 9 d .empty ⟨[1], 0⟩ = .err e :=
  ⟨fun _ _ => Classical.propDecidable _, _, _, rfl, _, rfl⟩

omit [DecidableEq Next] in
/-- With a minimum of 1, an input with no element at all is not rejected but makes the decoder panic. -/
theorem C15_between_panics : ∃ (_ : DecidableEq Next) (d : Decoder) (st : CompSt),
    compileFormat .empty ⟨fun _ l => l, 9⟩ (.repeatBetween (.lit .b8 1) (.lit .b8 2) (.byte (ByteSet.fromIter [1])))
      .empty new = .ok (d, st) ∧
    Decoder.parse ⟨[], fun _ => .panic⟩ 9 d .empty ⟨[7], 0⟩ = .panic :=
  ⟨fun _ _ => Classical.propDecidable _, _, _, rfl, rfl⟩

/-- `Maybe` is decided by its condition alone. -/
theorem C15_maybe (m : Module) (o : BuildOpts) (e : Expr) (f : Format) (next : Next) (st st' : CompSt)
    (d : Decoder) (hd : compileFormat m o (.maybe e f) next st = .ok (d, st')) :
    ∃ b, compileFormat m o f .empty st = .ok (b, st') ∧ ∀ env fuel s c w,
      Decoder.parse env (fuel + 1) d s c = .ok w ↔
        (e.evalValue s = .ok (.bool true) ∧ ∃ u, Decoder.parse env fuel b s c = .ok u ∧
          w = ⟨(.optSome u.value.1, u.value.2), u.errs⟩) ∨
        (e.evalValue s = .ok (.bool false) ∧ w = ⟨(.optNone, c), []⟩) := by
  obtain ⟨⟨b, st1⟩, h1, hd⟩ := Outcome.bind_eq_ok.1 hd
  cases hd
  refine ⟨b, h1, fun env fuel s c w => ?_⟩
  simp only [Decoder.parse]
  constructor
  · intro h
    obtain ⟨x, hx, h⟩ := Outcome.bind_eq_ok.1 h
    obtain ⟨v, hv, hx⟩ := Panicky.bind_eq_ok.1 (Outcome.ofPanicky_eq_ok.1 hx)
    rw [Sound.unwrapBool_eq hx] at hv
    cases x with
    | true =>
      obtain ⟨u, hu, h⟩ := Outcome.bind_eq_ok.1 h
      cases h
      exact .inl ⟨hv, u, hu, rfl⟩
    | false => cases h; exact .inr ⟨hv, rfl⟩
  · rintro (⟨hv, u, hu, rfl⟩ | ⟨hv, rfl⟩)
    · have : Decoder.evalBool e s = .ok true := Panicky.bind_eq_ok.2 ⟨_, hv, rfl⟩
      simp [this, Outcome.ofPanicky, hu, WithErr.map]
    · have : Decoder.evalBool e s = .ok false := Panicky.bind_eq_ok.2 ⟨_, hv, rfl⟩
      simp [this, Outcome.ofPanicky, WithErr.new]

example : ∃ d st w, compileFormat .empty ⟨fun _ l => l, 5⟩
    (.repeatUntilLast (.lambda "x" (.intRel .eq (.var "x") (.lit .b8 0))) (.byte ByteSet.full)) .empty new = .ok (d, st) ∧
    Decoder.parse ⟨[], fun _ => .panic⟩ 9 d .empty ⟨[1, 2, 0, 3], 0⟩ = .ok w ∧
    w.value.1 = .seq (.strict [.u8 1, .u8 2, .u8 0]) := ⟨_, _, _, rfl, rfl, rfl⟩

/-! ### C17 -/

/-- `Enforce` is a strict conversion: it succeeds exactly when its body succeeds with an empty log, and
returns what the body returned. -/
theorem C17_enforce (m : Module) (o : BuildOpts) (f : Format) (next : Next) (st st' : CompSt) (d : Decoder)
    (hd : compileFormat m o (.enforce f) next st = .ok (d, st')) :
    ∃ b, compileFormat m o f next st = .ok (b, st') ∧ ∀ env fuel s c,
      (∀ w, Decoder.parse env (fuel + 1) d s c = .ok w ↔ Decoder.parse env fuel b s c = .ok w ∧ w.errs = []) ∧
      ((∃ e, Decoder.parse env (fuel + 1) d s c = .err e) ↔
        (∃ e, Decoder.parse env fuel b s c = .err e) ∨ ∃ w, Decoder.parse env fuel b s c = .ok w ∧ w.errs ≠ []) := by
  obtain ⟨⟨b, st1⟩, h1, hd⟩ := Outcome.bind_eq_ok.1 hd
  cases hd
  refine ⟨b, h1, fun env fuel s c => ?_⟩
  simp only [Decoder.parse]
  cases Decoder.parse env fuel b s c with
  | ok u =>
    obtain ⟨v, errs⟩ := u
    cases errs with
    | nil =>
      simp only [Outcome.bind_ok, WithErr.new]
      refine ⟨fun w => ⟨fun h => ⟨h, by cases h; rfl⟩, fun h => h.1⟩, ?_⟩
      simp
    | cons e es =>
      simp only [Outcome.bind_ok]
      constructor
      · intro w
        constructor
        · intro h; cases h
        · rintro ⟨h, h2⟩; cases h; cases h2
      · simp
  | err e => simp
  | panic => simp
  | fuel => simp

/-- A lenient `Where` whose condition does not hold logs exactly one error on top of its body's; a strict
one fails; when the condition holds nothing is logged. -/
theorem C17_where (m : Module) (o : BuildOpts) (f : Format) (e : Expr) (strict : Bool) (next : Next)
    (st st' : CompSt) (d : Decoder) (hd : compileFormat m o (.where_ f e strict) next st = .ok (d, st')) :
    ∃ b, compileFormat m o f next st = .ok (b, st') ∧ ∀ env fuel s c w,
      Decoder.parse env (fuel + 1) d s c = .ok w ↔ ∃ u, Decoder.parse env fuel b s c = .ok u ∧
        ((e.evalLambda s u.value.1 = .ok (.bool true) ∧ w = u) ∨
         (e.evalLambda s u.value.1 = .ok (.bool false) ∧ strict = false ∧
           w = ⟨u.value, .badWhere e u.value.1 :: u.errs⟩)) := by
  obtain ⟨⟨b, st1⟩, h1, hd⟩ := Outcome.bind_eq_ok.1 hd
  cases hd
  refine ⟨b, h1, fun env fuel s c w => ?_⟩
  simp only [Decoder.parse, WithErr.joinO]
  constructor
  · intro h
    obtain ⟨u, hu, h⟩ := Outcome.bind_eq_ok.1 h
    obtain ⟨r, hr, h⟩ := Outcome.bind_eq_ok.1 h
    obtain ⟨x, hx, hr⟩ := Outcome.bind_eq_ok.1 hr
    obtain ⟨v, hv, hx⟩ := Panicky.bind_eq_ok.1 (Outcome.ofPanicky_eq_ok.1 hx)
    rw [Sound.unwrapBool_eq hx] at hv
    cases h
    refine ⟨u, hu, ?_⟩
    cases x with
    | true => cases hr; exact .inl ⟨hv, rfl⟩
    | false =>
      cases strict with
      | true => cases hr
      | false => cases hr; exact .inr ⟨hv, rfl, rfl⟩
  · rintro ⟨u, hu, ⟨hv, rfl⟩ | ⟨hv, rfl, rfl⟩⟩
    · have : Decoder.lambdaBool e s w.value.1 = .ok true := Panicky.bind_eq_ok.2 ⟨_, hv, rfl⟩
      simp [hu, this, Outcome.ofPanicky, WithErr.new]
    · have : Decoder.lambdaBool e s u.value.1 = .ok false := Panicky.bind_eq_ok.2 ⟨_, hv, rfl⟩
      simp [hu, this, Outcome.ofPanicky, WithErr.withErr]

example : ∃ d st w, compileFormat .empty ⟨fun _ l => l, 5⟩
    (.where_ (.byte ByteSet.full) (.lambda "x" (.intRel .eq (.var "x") (.lit .b8 0))) false) .empty new = .ok (d, st) ∧
    Decoder.parse ⟨[], fun _ => .panic⟩ 9 d .empty ⟨[1], 0⟩ = .ok w ∧ w.errs.length = 1 := ⟨_, _, _, rfl, rfl, rfl⟩

end Doodle
