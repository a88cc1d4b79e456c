import Verif.Lemmas.GenAll
import Verif.Model.Compile

/-!
C50: generated decoders do what the interpreter does.

The agreement theorems hold for the programs of the fragment of `Spec/Gen.lean`.  The refutations run one compiled
program in both ways, and each shows why a restriction of the fragment is needed.
-/

namespace Doodle
namespace Gen

open Rt (Parser PErr ByteOffset)

/-! ### agreement -/

/-- what is the same in all the theorems: a fresh parser is where a fresh reader is -/
theorem start_sim {bytes : List UInt8} (hb : 8 * bytes.length < usizeCard) : Sim false (ReadCtxt.new bytes) (Parser.new bytes) :=
  SimBytes.sim ⟨rfl, hb, by show 0 + bytes.length < _; omega⟩
    ⟨0, bytes.length, rfl, rfl, Nat.zero_le _, Nat.le_refl _, rfl, [], rfl, by
      show bytes = [] ++ bytes.take bytes.length
      rw [List.take_length]; rfl⟩

theorem run_agree {q : Nat → Ctx} {strict : Bool} {env : Doodle.Env} (hc : Faithful env) (hok : ProgramOk q strict env.program)
    {bytes : List UInt8} (hb : 8 * bytes.length < usizeCard) (fuel : Nat) :
    Agree (Ctx.top strict) (Parser.new bytes) (QV false) (Decoder.run env fuel (.new bytes))
      (run env.program fuel (.new bytes)) := by
  obtain ⟨⟨c1, c2, c3, c4, c5, c6, c7⟩, hprog⟩ := hok
  unfold Decoder.run run
  cases h : env.program[0]? with
  | none => exact .panic
  | some d =>
    have h1 := simAt hc hprog fuel (q 0) d .empty .empty (.new bytes) (.new bytes) c1 (hprog 0 d h) .empty
      (by rw [c2]; exact start_sim hb) ⟨(fun _ => rfl), (fun _ => rfl), (fun _ m hm => by cases hm; rfl)⟩
    rw [c2] at h1
    exact h1.covers c3 c4

/-- **C50**, success: whenever the interpreter reads a value, the generated decoder reads the same value, without the
marks that only the interpreter puts, and stops at the same byte.

Partial: for programs of the fragment; loops that ask a match tree at the end of the input, repetitions of at least one
element whose first byte does not show that an element follows, repetitions between two counts, byte vectors as input,
Huffman codes whose lengths depend on the input and `Permit` are left out. -/
theorem C50_generated_complete_partial {q : Nat → Ctx} {env : Doodle.Env} (hc : Faithful env) (hok : ProgramOk q false env.program)
    {bytes : List UInt8} (hb : 8 * bytes.length < usizeCard) {fuel : Nat} {w : Parsed}
    (h : Decoder.run env fuel (.new bytes) = .ok w) :
    ∃ p, run env.program fuel (.new bytes) = .ok (erase w.value.1) p ∧ p.offset = .bytes w.value.2.offset := by
  obtain ⟨v, p, h1, h2, h3⟩ := (run_agree hc hok hb fuel).1 w h
  obtain ⟨n, m, h4, _, _, _, h5, _⟩ := h2.2.toBytes
  have h6 : p.startOffset = 0 := h3.keep.start
  refine ⟨p, by rw [h1, h2.1.2], ?_⟩
  rw [h4, h5, h6, Nat.zero_add]

/-- **C50**, failure: for programs where failure decides nothing that generated code gets wrong (`strict`), whenever the
interpreter reports an error, so does the generated decoder. -/
theorem C50_generated_fails_partial {q : Nat → Ctx} {env : Doodle.Env} (hc : Faithful env) (hok : ProgramOk q true env.program)
    {bytes : List UInt8} (hb : 8 * bytes.length < usizeCard) {fuel : Nat} {e : DecodeErr}
    (h : Decoder.run env fuel (.new bytes) = .err e) : ∃ e' p, run env.program fuel (.new bytes) = .err e' p := by
  obtain ⟨e', p, h1, _⟩ := (run_agree hc hok hb fuel).2 e h rfl
  exact ⟨e', p, h1⟩

theorem programOk_weaken {q : Nat → Ctx} {program : List Decoder} (h : ProgramOk q true program) :
    ProgramOk q false program := by
  obtain ⟨⟨c1, c2, c3, c4, c5, c6, c7⟩, h2⟩ := h
  exact ⟨⟨c1, c2, c3, (fun h => nomatch h), c5, c6, c7⟩, h2⟩

/-- **C50**, the other direction: when the generated decoder reads a value, the interpreter, if it neither panics nor
runs out of its bound, reads that value and stops there too; when the generated decoder reports an error, the
interpreter, under the same condition, reports one. -/
theorem C50_generated_sound_partial {q : Nat → Ctx} {env : Doodle.Env} (hc : Faithful env) (hok : ProgramOk q true env.program)
    {bytes : List UInt8} (hb : 8 * bytes.length < usizeCard) {fuel : Nat}
    (hp : Decoder.run env fuel (.new bytes) ≠ .panic) (hf : Decoder.run env fuel (.new bytes) ≠ .fuel) :
    (∀ v p, run env.program fuel (.new bytes) = .ok v p → ∃ w, Decoder.run env fuel (.new bytes) = .ok w ∧
      v = erase w.value.1 ∧ p.offset = .bytes w.value.2.offset) ∧
    (∀ e p, run env.program fuel (.new bytes) = .err e p → ∃ e', Decoder.run env fuel (.new bytes) = .err e') ∧
    run env.program fuel (.new bytes) ≠ .panic := by
  cases h : Decoder.run env fuel (.new bytes) with
  | panic => exact absurd h hp
  | fuel => exact absurd h hf
  | err e =>
    obtain ⟨e', p, h1⟩ := C50_generated_fails_partial hc hok hb h
    rw [h1]
    exact ⟨(fun _ _ h => nomatch h), (fun _ _ _ => ⟨e, rfl⟩), (fun h => nomatch h)⟩
  | ok w =>
    obtain ⟨p, h1, h2⟩ := C50_generated_complete_partial hc (programOk_weaken hok) hb h
    rw [h1]
    exact ⟨(fun v p' h => by cases h; exact ⟨w, rfl, rfl, h2⟩), (fun _ _ h => nomatch h), (fun h => nomatch h)⟩

/-! ### a program of the fragment -/

/-- a program without dynamic decoders -/
private theorem no_dynamic {program : List Decoder} : Faithful ⟨program, fun _ => .panic⟩ := fun _ _ h => nomatch h

private def opts : BuildOpts := ⟨fun _ l => l, 20⟩
private def any : Format := .byte .full
private def is (b : UInt8) : Format := .byte (.singleton b)

/-- a length, that many letters `a` in a slice, a choice, an ordered choice, eight bits, and the end -/
private def demo : Format :=
  .letFormat any "len" (.tuple [.slice (.var "len") (.repeat_ (is 97)),
    .union [.variant "b" (.where_ (is 98) (.lambda "x" (.intRel .eq (.var "x") (.lit .b8 98))) true), .variant "c" (is 99)],
    .unionNondet [.tuple [is 99, is 100], .map (is 99) (.lambda "x" (.asNum .b16 (.var "x")))],
    .bits (.repeatCount (.lit .b8 8) (.byte (ByteSet.fromIter [0, 1]))), .peekNot (is 1), .endOfInput])

private def demoDecoder : Decoder :=
  .letFormat (.byte .full) "len" (.tuple [
    .slice (.var "len") (.while_ (.node (some 1) [(.singleton 97, .node (some 0) [])]) (.byte (.singleton 97))),
    .branch (.node none [(.singleton 98, .node (some 0) []), (.singleton 99, .node (some 1) [])])
      [.variant "b" (.where_ (.byte (.singleton 98)) (.lambda "x" (.intRel .eq (.var "x") (.lit .b8 98))) true),
       .variant "c" (.byte (.singleton 99))],
    .parallel [.tuple [.byte (.singleton 99), .byte (.singleton 100)],
      .map (.byte (.singleton 99)) (.lambda "x" (.asNum .b16 (.var "x")))],
    .bits (.repeatCount (.lit .b8 8) (.byte (ByteSet.fromIter [0, 1]))), .peekNot (.byte (.singleton 1)), .endOfInput])

private theorem demo_compiled : ∃ _ : DecidableEq Next,
    Compiler.compileProgram .empty opts 5 demo = .ok [demoDecoder] :=
  ⟨fun _ _ => Classical.propDecidable _, rfl⟩

private theorem demo_ok : ProgramOk (fun _ => Ctx.top true) true [demoDecoder] := by
  have hv : ∀ x, x = "len" → reserved x = false := by rintro x rfl; decide +kernel
  refine ⟨⟨fun _ _ => rfl, rfl, id, id, id, id, id⟩, ?_⟩
  intro n d hd
  have : d = demoDecoder := by
    cases n with
    | zero => cases hd; rfl
    | succ n => cases hd
  subst this
  simp only [demoDecoder, Fragment, FragmentAll, RootTree, LeafTree, LeafBranches, ExprOk, ExprFlat, Expr.free, Ctx.top,
    Ctx.inner, Ctx.Sound, MatchTree.accept]
  simp only [Bool.false_eq_true, ne_eq, not_true_eq_false, false_implies, reduceCtorEq, if_true, not_false_eq_true, true_and,
    and_true, implies_true, List.length_nil, List.mem_cons, List.not_mem_nil, or_false, forall_eq_or_imp, forall_eq,
    List.length_cons, Option.some.injEq, List.cons_ne_nil]
  refine ⟨⟨?_, fun h => absurd h (by omega), ⟨0, rfl⟩⟩,
    ⟨fun _ => ⟨by decide +kernel, by decide +kernel⟩, ?_⟩, ?_⟩
  · intro x hx hl; rw [hv x hl.symm] at hx; cases hx
  · rintro x _ ⟨h1, h2⟩; exact h1 h2
  · rintro x _ ⟨h1, h2⟩; exact h1 h2

/-- The fragment has programs that use most of the constructs, and they run; the theorems apply to them. -/
example : ∃ (v : Value) (p : Parser),
    run [demoDecoder] 9 (.new [2, 97, 97, 98, 99, 5]) = .ok v p ∧ p.offset = .bytes 6 := by
  have h : ∃ w, Decoder.run ⟨[demoDecoder], fun _ => .panic⟩ 9 (.new [2, 97, 97, 98, 99, 5]) = .ok w ∧
    w.value.2.offset = 6 := ⟨_, rfl, rfl⟩
  obtain ⟨w, h1, h2⟩ := h
  obtain ⟨p, h3, h4⟩ := C50_generated_complete_partial (env := ⟨[demoDecoder], fun _ => .panic⟩) no_dynamic (programOk_weaken demo_ok)
    (by decide) h1
  exact ⟨_, p, h3, by rw [h4, h2]⟩

example : ∃ e p, run [demoDecoder] 9 (.new [2, 97, 98]) = .err e p := by
  have h : ∃ e, Decoder.run ⟨[demoDecoder], fun _ => .panic⟩ 9 (.new [2, 97, 98]) = .err e := ⟨_, rfl⟩
  obtain ⟨e, h1⟩ := h
  exact C50_generated_fails_partial (env := ⟨[demoDecoder], fun _ => .panic⟩) no_dynamic demo_ok (by decide) h1

/-- one or more letters `a` and a `b` -/
private def many : Format := .tuple [.repeat1 (is 97), is 98]

private def manyDecoder : Decoder :=
  .tuple [.until_ (.node none [(.singleton 98, .node (some 0) []), (.singleton 97, .node (some 1) [])]) (.byte (.singleton 97)),
    .byte (.singleton 98)]

private theorem many_compiled : ∃ _ : DecidableEq Next,
    Compiler.compileProgram .empty opts 5 many = .ok [manyDecoder] :=
  ⟨fun _ _ => Classical.propDecidable _, rfl⟩

private theorem many_ok : ProgramOk (fun _ => Ctx.top false) false [manyDecoder] := by
  refine ⟨⟨fun _ _ => rfl, rfl, id, id, id, id, id⟩, ?_⟩
  intro n d hd
  have : d = manyDecoder := by
    cases n with
    | zero => cases hd; rfl
    | succ n => cases hd
  subst this
  have h1 : (ByteSet.singleton 97).isFull = false := by decide +kernel
  have h2 : (ByteSet.singleton 98).isFull = false := by decide +kernel
  have h3 : ∀ i : Fin 256, (ByteSet.singleton 97).contains (UInt8.ofNat i) = true → UInt8.ofNat i = 97 := by decide +kernel
  have h4 : (ByteSet.singleton 97).contains 97 = true := by decide +kernel
  have h5 : (ByteSet.singleton 98).contains 97 = false := by decide +kernel
  simp only [manyDecoder, Fragment, FragmentAll, StartsIn, RootTree, LeafTree, LeafBranches, Ctx.top]
  refine ⟨⟨trivial, ⟨by simp, ?_⟩, ?_, trivial⟩, trivial, trivial⟩
  · intro _
    refine ⟨?_, .inl trivial⟩
    intro x hx
    simp only [List.mem_cons, List.not_mem_nil, or_false] at hx
    rcases hx with rfl | rfl
    · exact h2
    · exact h1
  · intro b hb w
    have hb' : b = 97 := by
      have := h3 ⟨b.toNat, b.toNat_lt⟩
      simp only [UInt8.ofNat_toNat] at this
      exact this hb
    rw [hb']
    refine ⟨0, ?_⟩
    rw [MatchTree.matchesBytes, MatchTree.matchesBranches, h5, MatchTree.matchesBranches, h4]
    simp only [Bool.false_eq_true, if_false, if_true]
    cases w with
    | nil => rfl
    | cons b w => rw [MatchTree.matchesBytes, MatchTree.matchesBranches]

/-- The fragment includes repetitions of at least one element. -/
example : ∃ (v : Value) (p : Parser), run [manyDecoder] 9 (.new [97, 97, 98]) = .ok v p ∧ p.offset = .bytes 3 := by
  have h : ∃ w, Decoder.run ⟨[manyDecoder], fun _ => .panic⟩ 9 (.new [97, 97, 98]) = .ok w ∧
    w.value.2.offset = 3 := ⟨_, rfl, rfl⟩
  obtain ⟨w, h1, h2⟩ := h
  obtain ⟨p, h3, h4⟩ := C50_generated_complete_partial (env := ⟨[manyDecoder], fun _ => .panic⟩) no_dynamic many_ok (by decide) h1
  exact ⟨_, p, h3, by rw [h4, h2]⟩

/-- bits of a Huffman code with three words: 0, 10 and 11 -/
private def codedDecoder : Decoder :=
  .bits (.dynamic "code" (.seq [.lit .b8 1, .lit .b8 2, .lit .b8 2]) none (.repeatCount (.lit .b8 3) (.apply "code")))

private def coded : Format :=
  .bits (.dynamic "code" (.seq [.lit .b8 1, .lit .b8 2, .lit .b8 2]) none (.repeatCount (.lit .b8 3) (.apply "code")))

private theorem coded_compiled : ∃ _ : DecidableEq Next,
    Compiler.compileProgram .empty opts 5 coded = .ok [codedDecoder] :=
  ⟨fun _ _ => Classical.propDecidable _, rfl⟩

private theorem coded_ok : ProgramOk (fun _ => Ctx.top true) true [codedDecoder] := by
  refine ⟨⟨fun _ _ => rfl, rfl, id, id, id, id, id⟩, ?_⟩
  intro n d hd
  have : d = codedDecoder := by
    cases n with
    | zero => cases hd; rfl
    | succ n => cases hd
  subst this
  simp only [codedDecoder, Fragment, ExprOk, ExprFlat, ExprsFlat, Ctx.top, Ctx.Sound]
  refine ⟨trivial, fun _ _ => trivial, ⟨⟨trivial, trivial, trivial, trivial⟩, ?_⟩, (fun _ h => nomatch h), ?_,
    ⟨trivial, ?_⟩, .inl trivial⟩
  · intro x _ h
    simp [Expr.free, Expr.freeAny] at h
  · intro s ls vs h
    cases h
    exact ⟨_, _, rfl, by simp, by simp, (by simp only [List.mem_cons, List.not_mem_nil, or_false]; rintro l (rfl | rfl | rfl) <;> decide), rfl⟩
  · intro x _ h
    simp [Expr.free] at h

private theorem coded_faithful (inst : DecidableEq Next) : Faithful (Compiler.env opts [codedDecoder]) := fun _ _ h =>
  ⟨inst, opts, (fun _ _ _ => Iff.rfl), (by decide), h⟩

set_option maxHeartbeats 2000000 in
/-- The fragment includes Huffman codes. -/
example : ∃ (v : Value) (p : Parser), run [codedDecoder] 9 (.new [0x9a]) = .ok v p ∧ p.offset = .bytes 1 := by
  have h : ∃ (i : DecidableEq Next) (w : Parsed), Decoder.run (@Compiler.env i opts [codedDecoder]) 9 (.new [0x9a]) = .ok w ∧
    w.value.2.offset = 1 := ⟨fun _ _ => Classical.propDecidable _, _, rfl, rfl⟩
  obtain ⟨i, w, h1, h2⟩ := h
  obtain ⟨p, h3, h4⟩ := C50_generated_complete_partial (coded_faithful i) (programOk_weaken coded_ok) (by decide) h1
  exact ⟨_, p, h3, by rw [h4, h2]⟩

/-! ### where the two differ -/

/-- An optional byte at the end of the input: the interpreter takes the other alternative, the generated decoder reports an
error, because it reads a byte before deciding. -/
theorem C50_optional_end_refuted : ∃ (_ : DecidableEq Next) (f : Format) (prog : List Decoder) (bytes : List UInt8) (w : Parsed) (x : PErr) (p : Parser),
    Compiler.compileProgram .empty ⟨fun _ l => l, 20⟩ 5 f = .ok prog ∧
    Decoder.run (Compiler.env ⟨fun _ l => l, 20⟩ prog) 9 (.new bytes) = .ok w ∧
    run prog 9 (.new bytes) = .err x p :=
  ⟨fun _ _ => Classical.propDecidable _, .union [is 97, .tuple []],
    _, [], _, _, _, rfl, rfl, rfl⟩

/-- Two optional bytes and neither follows: the interpreter takes the third, empty alternative, the generated decoder
reports an error. -/
theorem C50_optional_other_refuted : ∃ (_ : DecidableEq Next) (f : Format) (prog : List Decoder) (bytes : List UInt8) (w : Parsed) (x : PErr) (p : Parser),
    Compiler.compileProgram .empty ⟨fun _ l => l, 20⟩ 5 f = .ok prog ∧
    Decoder.run (Compiler.env ⟨fun _ l => l, 20⟩ prog) 9 (.new bytes) = .ok w ∧
    run prog 9 (.new bytes) = .err x p :=
  ⟨fun _ _ => Classical.propDecidable _, .union [is 97, is 98, .tuple []],
    _, [99], _, _, _, rfl, rfl, rfl⟩

/-- One or more bytes at the end of the input: the interpreter reports an error, the generated decoder reads none. -/
theorem C50_repeat1_end_refuted : ∃ (_ : DecidableEq Next) (f : Format) (prog : List Decoder) (bytes : List UInt8) (e : DecodeErr) (v : Value) (p : Parser),
    Compiler.compileProgram .empty ⟨fun _ l => l, 20⟩ 5 f = .ok prog ∧
    Decoder.run (Compiler.env ⟨fun _ l => l, 20⟩ prog) 9 (.new bytes) = .err e ∧
    run prog 9 (.new bytes) = .ok v p :=
  ⟨fun _ _ => Classical.propDecidable _, .repeat1 (is 97),
    _, [], _, _, _, rfl, rfl, rfl⟩

/-- Where input is left, the generated loop of `Repeat1` reads at least one element, or it fails: `C50_repeat1_end_refuted` is
the only way to read none. -/
theorem C50_repeat1_reads (program : List Decoder) (n : Nat) (tree : MatchTree) (d : Decoder) (s : Env) (p p' : Parser) (v : Value)
    (k : Nat) (hk : p.remaining = .ok (k + 1)) (h : exec program n (.until_ tree d) s p = .ok v p') :
    ∃ x xs, v = .seq (.strict (x :: xs)) := by
  have grows : ∀ (elt : Env → Parser → Res Value) (j : Nat) (x : Value) (xs vs : List Value) (p p' : Parser),
      untilLoop tree elt s j (x :: xs) p = .ok vs p' → ∃ y ys, vs = y :: ys := by
    intro elt j
    induction j with
    | zero => intro x xs vs p p' h; cases h
    | succ j ih =>
      intro x xs vs p p' h
      unfold untilLoop at h
      cases hr : p.remaining with
      | panic => rw [hr] at h; cases h
      | ok r =>
        rw [hr] at h
        change (if 0 < r then _ else _) = _ at h
        by_cases h0 : 0 < r
        · rw [if_pos h0] at h
          cases ht : matchTree tree p with
          | err e q => rw [ht] at h; cases h
          | panic => rw [ht] at h; cases h
          | fuel => rw [ht] at h; cases h
          | ok ix q =>
            rw [ht] at h
            change (if ix = 0 then _ else _) = _ at h
            by_cases hix : ix = 0
            · rw [if_pos hix] at h; cases h; exact ⟨x, xs, rfl⟩
            · rw [if_neg hix] at h
              cases he : elt (.single "matching_ix" (.ofUsize ix) (accum (x :: xs) s)) q with
              | err e q => rw [he] at h; cases h
              | panic => rw [he] at h; cases h
              | fuel => rw [he] at h; cases h
              | ok y q' => rw [he] at h; exact ih _ _ _ _ _ h
        · rw [if_neg h0] at h; cases h; exact ⟨x, xs, rfl⟩
  cases n with
  | zero => cases h
  | succ n =>
    replace h : ((untilLoop tree (fun s p => exec program n d s p) s (n + 1) [] p).bind fun vs p => Res.ok (Value.seq (.strict vs)) p) = .ok v p' := h
    cases hl : untilLoop tree (fun s p => exec program n d s p) s (n + 1) [] p with
    | err e q => rw [hl] at h; cases h
    | panic => rw [hl] at h; cases h
    | fuel => rw [hl] at h; cases h
    | ok vs q =>
      rw [hl] at h
      cases h
      unfold untilLoop at hl
      rw [hk] at hl
      have hbind : ∀ f : Nat → Parser → Res (List Value), (Res.pure p (Panicky.ok (k + 1))).bind f = f (k + 1) p := fun _ => rfl
      rw [hbind, if_pos (Nat.succ_pos k)] at hl
      cases ht : matchTree tree p with
      | err e q => rw [ht] at hl; cases hl
      | panic => rw [ht] at hl; cases hl
      | fuel => rw [ht] at hl; cases hl
      | ok ix q =>
        rw [ht] at hl
        change (if ix = 0 then _ else _) = _ at hl
        by_cases hix : ix = 0
        · rw [if_pos hix] at hl; cases hl
        · rw [if_neg hix] at hl
          cases he : exec program n d (.single "matching_ix" (.ofUsize ix) (accum [] s)) q with
          | err e q => rw [he] at hl; cases hl
          | panic => rw [he] at hl; cases hl
          | fuel => rw [he] at hl; cases hl
          | ok y q' =>
            rw [he] at hl
            obtain ⟨x, xs, rfl⟩ := grows _ _ _ _ _ _ _ hl
            exact ⟨x, xs, rfl⟩

/-- two bytes, of which the loop reads the first -/
example : ∃ (_ : DecidableEq Next) (prog : List Decoder) (v : Value) (p : Parser),
    Compiler.compileProgram .empty ⟨fun _ l => l, 20⟩ 5 (.repeat1 (is 97)) = .ok prog ∧ (Parser.new [97, 98]).remaining = .ok 2 ∧
    run prog 9 (.new [97, 98]) = .ok v p :=
  ⟨fun _ _ => Classical.propDecidable _, _, _, _, rfl, rfl, rfl⟩

/-- At most two bytes, and there is one: the interpreter asks for the number of bytes at the start in every round, and reports an
error at the second, the generated decoder reads one. -/
theorem C50_repeatBetween_refuted : ∃ (_ : DecidableEq Next) (f : Format) (prog : List Decoder) (bytes : List UInt8) (e : DecodeErr) (v : Value) (p : Parser),
    Compiler.compileProgram .empty ⟨fun _ l => l, 20⟩ 5 f = .ok prog ∧
    Decoder.run (Compiler.env ⟨fun _ l => l, 20⟩ prog) 9 (.new bytes) = .err e ∧
    run prog 9 (.new bytes) = .ok v p :=
  ⟨fun _ _ => Classical.propDecidable _, .repeatBetween (.lit .b8 0) (.lit .b8 2) (is 97),
    _, [97, 98], _, _, _, rfl, rfl, rfl⟩

/-- A choice inside an alternative of another leaves its place on the stack: when the alternative fails later, the next one is
tried from the place of the inner choice. -/
theorem C50_parallel_nested_refuted : ∃ (_ : DecidableEq Next) (f : Format) (prog : List Decoder) (bytes : List UInt8) (w : Parsed) (x : PErr) (p : Parser),
    Compiler.compileProgram .empty ⟨fun _ l => l, 20⟩ 5 f = .ok prog ∧
    Decoder.run (Compiler.env ⟨fun _ l => l, 20⟩ prog) 9 (.new bytes) = .ok w ∧
    run prog 9 (.new bytes) = .err x p :=
  ⟨fun _ _ => Classical.propDecidable _, .unionNondet [.tuple [is 1, .unionNondet [is 2, is 3], is 4], .tuple [is 1, is 2, is 5]],
    _, [1, 2, 5], _, _, _, rfl, rfl, rfl⟩

/-- A failed negative lookahead inside another leaves its place on the stack: reading goes on from there. -/
theorem C50_peekNot_nested_refuted : ∃ (_ : DecidableEq Next) (f : Format) (prog : List Decoder) (bytes : List UInt8) (w : Parsed) (x : PErr) (p : Parser),
    Compiler.compileProgram .empty ⟨fun _ l => l, 20⟩ 5 f = .ok prog ∧
    Decoder.run (Compiler.env ⟨fun _ l => l, 20⟩ prog) 9 (.new bytes) = .ok w ∧
    run prog 9 (.new bytes) = .err x p :=
  ⟨fun _ _ => Classical.propDecidable _, .tuple [.peekNot (.tuple [is 1, .peekNot (is 2)]), is 1],
    _, [1, 2], _, _, _, rfl, rfl, rfl⟩

/-- `Permit` goes on where the failed format stopped, the interpreter where it began. -/
theorem C50_permit_rewind_refuted : ∃ (_ : DecidableEq Next) (f : Format) (prog : List Decoder) (bytes : List UInt8) (w : Parsed) (x : PErr) (p : Parser),
    Compiler.compileProgram .empty ⟨fun _ l => l, 20⟩ 5 f = .ok prog ∧
    Decoder.run (Compiler.env ⟨fun _ l => l, 20⟩ prog) 9 (.new bytes) = .ok w ∧
    run prog 9 (.new bytes) = .err x p :=
  ⟨fun _ _ => Classical.propDecidable _, .tuple [.permit (.tuple [is 1, is 2]) (.lit .b8 0), is 1],
    _, [1, 3], _, _, _, rfl, rfl, rfl⟩

/-- A view made inside a slice reaches beyond the slice. -/
theorem C50_view_limit_refuted : ∃ (_ : DecidableEq Next) (f : Format) (prog : List Decoder) (bytes : List UInt8) (e : DecodeErr) (v : Value) (p : Parser),
    Compiler.compileProgram .empty ⟨fun _ l => l, 20⟩ 5 f = .ok prog ∧
    Decoder.run (Compiler.env ⟨fun _ l => l, 20⟩ prog) 9 (.new bytes) = .err e ∧
    run prog 9 (.new bytes) = .ok v p :=
  ⟨fun _ _ => Classical.propDecidable _, .slice (.lit .b8 1) (.letView "v" (.captureBytes (.var "v") (.lit .b8 2))),
    _, [1, 2], _, _, _, rfl, rfl, rfl⟩

/-- Reading at an earlier offset inside a slice reaches beyond the slice. -/
theorem C50_seek_limit_refuted : ∃ (_ : DecidableEq Next) (f : Format) (prog : List Decoder) (bytes : List UInt8) (e : DecodeErr) (v : Value) (p : Parser),
    Compiler.compileProgram .empty ⟨fun _ l => l, 20⟩ 5 f = .ok prog ∧
    Decoder.run (Compiler.env ⟨fun _ l => l, 20⟩ prog) 9 (.new bytes) = .err e ∧
    run prog 9 (.new bytes) = .ok v p :=
  ⟨fun _ _ => Classical.propDecidable _, .tuple [any, .slice (.lit .b8 1) (.withRelativeOffset (.lit .b64 0) (.lit .b64 0) (.tuple [any, any, any]))],
    _, [1, 2, 3], _, _, _, rfl, rfl, rfl⟩

/-- Taking more bytes from a view than there are: the interpreter reports an error, the generated decoder panics. -/
theorem C50_capture_panic_refuted : ∃ (_ : DecidableEq Next) (f : Format) (prog : List Decoder) (bytes : List UInt8) (e : DecodeErr),
    Compiler.compileProgram .empty ⟨fun _ l => l, 20⟩ 5 f = .ok prog ∧
    Decoder.run (Compiler.env ⟨fun _ l => l, 20⟩ prog) 9 (.new bytes) = .err e ∧
    run prog 9 (.new bytes) = .panic :=
  ⟨fun _ _ => Classical.propDecidable _, .letView "v" (.captureBytes (.var "v") (.lit .b8 1)),
    _, [], _, rfl, rfl, rfl⟩

/-- A variable of the format named like one of the generated code: the condition is about another value. -/
theorem C50_capture_name_refuted : ∃ (_ : DecidableEq Next) (f : Format) (prog : List Decoder) (bytes : List UInt8) (e : DecodeErr) (v : Value) (p : Parser),
    Compiler.compileProgram .empty ⟨fun _ l => l, 20⟩ 5 f = .ok prog ∧
    Decoder.run (Compiler.env ⟨fun _ l => l, 20⟩ prog) 9 (.new bytes) = .err e ∧
    run prog 9 (.new bytes) = .ok v p :=
  ⟨fun _ _ => Classical.propDecidable _, .let_ "inner" (.lit .b8 5) (.where_ any (.lambda "x" (.intRel .eq (.var "x") (.var "inner"))) true),
    _, [7], _, _, _, rfl, rfl, rfl⟩

/-- `Enforce` has no effect in generated code. -/
theorem C50_enforce_refuted : ∃ (_ : DecidableEq Next) (f : Format) (prog : List Decoder) (bytes : List UInt8) (e : DecodeErr) (v : Value) (p : Parser),
    Compiler.compileProgram .empty ⟨fun _ l => l, 20⟩ 5 f = .ok prog ∧
    Decoder.run (Compiler.env ⟨fun _ l => l, 20⟩ prog) 9 (.new bytes) = .err e ∧
    run prog 9 (.new bytes) = .ok v p :=
  ⟨fun _ _ => Classical.propDecidable _, .enforce (.where_ any (.lambda "x" (.bool false)) false),
    _, [7], _, _, _, rfl, rfl, rfl⟩

set_option maxRecDepth 4000 in
/-- A base and an offset of one byte each whose sum is more than 255: the generated decoder panics, although the target is in
the input. -/
theorem C50_offset_panic_refuted : ∃ (_ : DecidableEq Next) (f : Format) (prog : List Decoder) (bytes : List UInt8) (w : Parsed),
    Compiler.compileProgram .empty ⟨fun _ l => l, 20⟩ 5 f = .ok prog ∧
    Decoder.run (Compiler.env ⟨fun _ l => l, 20⟩ prog) 9 (.new bytes) = .ok w ∧
    run prog 9 (.new bytes) = .panic :=
  ⟨fun _ _ => Classical.propDecidable _, .withRelativeOffset (.lit .b8 200) (.lit .b8 56) (.tuple []),
    _, List.replicate 256 0, _, rfl, rfl, rfl⟩

/-- Looking ahead at nine bits in a slice of one byte: the interpreter reports an error, the generated decoder reads the ninth
bit beyond the slice and succeeds. -/
theorem C50_bits_limit_refuted : ∃ (_ : DecidableEq Next) (f : Format) (prog : List Decoder) (bytes : List UInt8) (e : DecodeErr) (v : Value) (p : Parser),
    Compiler.compileProgram .empty ⟨fun _ l => l, 20⟩ 5 f = .ok prog ∧
    Decoder.run (Compiler.env ⟨fun _ l => l, 20⟩ prog) 9 (.new bytes) = .err e ∧
    run prog 9 (.new bytes) = .ok v p :=
  ⟨fun _ _ => Classical.propDecidable _, .slice (.lit .b8 1) (.peek (.bits (.repeatCount (.lit .b8 9) (.byte .full)))),
    _, [1, 1], _, _, _, rfl, rfl, rfl⟩

set_option maxHeartbeats 2000000 in
/-- A table of code lengths 1, 1, 2 with the code words 0, 1 and 00: the interpreter reads the symbol of 00, the generated decoder
refuses the table. -/
theorem C50_overfull_refuted : ∃ (_ : DecidableEq Next) (f : Format) (prog : List Decoder) (bytes : List UInt8) (w : Parsed) (x : PErr) (p : Parser),
    Compiler.compileProgram .empty ⟨fun _ l => l, 20⟩ 5 f = .ok prog ∧
    Decoder.run (Compiler.env ⟨fun _ l => l, 20⟩ prog) 9 (.new bytes) = .ok w ∧
    run prog 9 (.new bytes) = .err x p :=
  ⟨fun _ _ => Classical.propDecidable _,
    .bits (.dynamic "code" (.seq [.lit .b8 1, .lit .b8 1, .lit .b8 2]) none (.apply "code")),
    _, [0], _, _, _, rfl, rfl, rfl⟩

/-- The position inside a view: the interpreter counts from the start of the input, the generated decoder from the start of the
view. -/
theorem C50_view_pos_refuted : ∃ (_ : DecidableEq Next) (f : Format) (prog : List Decoder) (bytes : List UInt8) (w : Parsed)
    (v : Value) (p : Parser), Compiler.compileProgram .empty ⟨fun _ l => l, 20⟩ 5 f = .ok prog ∧
    Decoder.run (Compiler.env ⟨fun _ l => l, 20⟩ prog) 9 (.new bytes) = .ok w ∧
    run prog 9 (.new bytes) = .ok v p ∧ w.value.1.unwrapUsize = .ok 1 ∧ v.unwrapUsize = .ok 0 :=
  ⟨fun _ _ => Classical.propDecidable _, .monadSeq any (.letView "v" (.parseFromView (.var "v") .pos)),
    _, [7], _, _, _, rfl, rfl, rfl, rfl, rfl⟩

end Gen
end Doodle
