import Verif.Lemmas.Consume
import Verif.Props.Sound

/-! Property C08: what a successful parse consumes lies inside the format's static match bounds.

The claim fails for `Permit`, whose bounds are those of the format it guards although the fallback
consumes nothing, and for sizes given by expressions with unsound bounds (C05).  Both are refuted below and
excluded in the theorems (`Format.BoundsSafe`). -/

namespace Doodle

open Grammar Compiler

/-- In the grammar: a derivation of `f` covers a number of bytes inside `f`'s match bounds. -/
theorem C08_grammar_partial (m : Module) (rej : Format → Scope Format → ReadCtxt → Prop) (f : Format)
    (b : Bounds) (hf : f.BoundsSafe m) (hb : f.matchBounds m = .ok b)
    (s : Scope Format) (hs : ScopeHuffman s) (c c' : ReadCtxt) (hc : c.Inside) (v : Value) (k : Nat)
    (h : Parses m rej f s c v c' k) : ∃ n, c'.offset = c.offset + n ∧ InInterval b n :=
  Consume.consumes h _ b hb hf hs hc

/-- For programs: whenever the compiled format succeeds, the number of bytes consumed lies inside the
match bounds. -/
theorem C08_run_partial [DecidableEq Next] (m : Module) (o : BuildOpts) (cfuel : Nat) (f : Format)
    (prog : List Decoder) (b : Bounds) (hf : f.BoundsSafe m)
    (hb : f.matchBounds m = .ok b) (hp : compileProgram m o cfuel f = .ok prog)
    (fuel : Nat) (c : ReadCtxt) (hc : c.Inside) (w : Parsed)
    (h : Decoder.run (env o prog) fuel c = .ok w) :
    ∃ n, w.value.2.offset = c.offset + n ∧ InInterval b n := by
  obtain ⟨M, hM⟩ := C11_sound_partial m o cfuel f prog hp fuel c w h
  exact C08_grammar_partial m _ f b hf hb .empty (fun x g hg => by cases hg) c _ hc _ _ hM

/-- A format that is not nullable consumes at least one byte whenever it succeeds. -/
theorem C08_notNullable_partial [DecidableEq Next] (m : Module) (o : BuildOpts) (cfuel : Nat) (f : Format)
    (prog : List Decoder) (hf : f.BoundsSafe m) (hn : f.isNullable m = .ok false)
    (hp : compileProgram m o cfuel f = .ok prog) (fuel : Nat) (c : ReadCtxt) (hc : c.Inside) (w : Parsed)
    (h : Decoder.run (env o prog) fuel c = .ok w) : c.offset < w.value.2.offset := by
  obtain ⟨b, hb, hn⟩ := Panicky.bind_eq_ok.1 hn
  obtain ⟨n, hn', hin⟩ := C08_run_partial m o cfuel f prog b hf hb hp fuel c hc w h
  have h0 : ¬ b.min = 0 := by
    have := Panicky.ok.inj hn
    simpa using this
  have := hin.1
  omega

/-- a length byte, that many bytes of payload in a slice, and a terminator read by an item of the module -/
private def frame : Format :=
  .letFormat (.byte (ByteSet.fromIter [1, 2])) "n"
    (.tuple [.slice (.arith .add (.asNum .b8 (.var "n")) (.lit .b8 1)) (.repeat_ (.byte (ByteSet.fromIter [7]))),
      .itemVar 0 [] []])

private def frameModule : Module := ⟨[⟨[], [], .byte (ByteSet.fromIter [0])⟩]⟩

example : ∃ (_ : DecidableEq Next) (prog : List Decoder) (w : Parsed), frame.BoundsSafe frameModule ∧
    frame.matchBounds frameModule = .ok ⟨3, some 258⟩ ∧ compileProgram frameModule ⟨fun _ l => l, 20⟩ 5 frame = .ok prog ∧
    Decoder.run (env ⟨fun _ l => l, 20⟩ prog) 20 ⟨[2, 7, 7, 7, 0], 0⟩ = .ok w ∧ w.value.2.offset = 5 := by
  refine ⟨fun _ _ => Classical.propDecidable _, _, _, ?_, by decide +kernel, rfl, rfl, rfl⟩
  simp [frame, frameModule, Format.BoundsSafe, Format.BoundsSafeWith, Format.AllBoundsSafe, Format.ItemBoundsSafe,
    Expr.SpineSafe, OpSafe]

/-- `Permit` has the bounds of the format it guards, but its fallback consumes nothing. -/
theorem C08_permit_refuted : ∃ (_ : DecidableEq Next) (f : Format) (o : BuildOpts) (prog : List Decoder)
    (c : ReadCtxt) (w : Parsed) (b : Bounds), o.ord.Valid ∧ f.matchBounds .empty = .ok b ∧
    compileProgram .empty o 5 f = .ok prog ∧ c.Inside ∧ Decoder.run (env o prog) 20 c = .ok w ∧
    ∀ n, w.value.2.offset = c.offset + n → ¬ InInterval b n := by
  refine ⟨fun _ _ => Classical.propDecidable _, .permit (.byte (ByteSet.fromIter [1])) (.lit .b8 0),
    ⟨fun _ l => l, 20⟩, _, ⟨[2], 0⟩, _, .exact 1, fun _ _ _ => Iff.rfl, rfl, rfl, Nat.zero_le _, rfl, ?_⟩
  intro n hn
  have : (0 : Nat) = 0 + n := hn
  rw [Bounds.C04_exact]
  omega

/-- The size of a slice given by a bit-and: the static size is 0, one byte is consumed. -/
theorem C08_size_refuted : ∃ (_ : DecidableEq Next) (f : Format) (o : BuildOpts) (prog : List Decoder)
    (c : ReadCtxt) (w : Parsed) (b : Bounds), o.ord.Valid ∧ f.matchBounds .empty = .ok b ∧
    compileProgram .empty o 5 f = .ok prog ∧ c.Inside ∧ Decoder.run (env o prog) 20 c = .ok w ∧
    ∀ n, w.value.2.offset = c.offset + n → ¬ InInterval b n := by
  refine ⟨fun _ _ => Classical.propDecidable _, .letFormat (.byte (ByteSet.fromIter [1])) "x"
      (.slice (.arith .bitAnd (.lit .b8 15) (.asNum .b8 (.var "x"))) (.tuple [])),
    ⟨fun _ l => l, 20⟩, _, ⟨[1, 2], 0⟩, _, .exact 1, fun _ _ _ => Iff.rfl, by decide +kernel, rfl,
    Nat.zero_le _, rfl, ?_⟩
  intro n hn
  have : (2 : Nat) = 0 + n := hn
  rw [Bounds.C04_exact]
  omega

end Doodle
