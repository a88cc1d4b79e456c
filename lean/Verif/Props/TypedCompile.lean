import Verif.Lemmas.TypedRun
import Verif.Lemmas.TypedAccept

/-!
C59 — The code generator has a compiler of its own: from typed formats it makes a program of decoders, which is then
printed as Rust.  The interpreter compiles untyped formats.  A user expects both to decode alike.

`TCompiler.compileProgram` models the code generator's compiler, `TFormat.erase` is the conversion of typed formats to
formats that the code itself has, `Decoder.run` is what a program of decoders does.  The steps from the program of
decoders to Rust text are not part of this claim.
-/

namespace Doodle

/-- **C59.** Both compilers make programs that do exactly the same on every input: the same result or error after the
same number of steps.  The typed format and the typed formats of extra roots have none of the shapes that are refuted
below (`Fit`), no byte set is empty, both hash maps are iterated in any order. -/
theorem C59_generated_program_decodes_as_interpreted_partial {τ : Type} [DecidableEq Next] [DecidableEq (TNext τ)]
    (m : Module) (o : TOpts τ) (fuel fuel' : Nat) (f : TFormat τ) (extra : List (TFormat τ)) (prog prog' : List Decoder)
    (hm : m.BytesOk) (ho : o.base.ord.Valid) (ho' : o.ord.Valid) (hf : f.Fit m) (hx : ∀ g ∈ extra, g.Fit m)
    (h : Compiler.compileProgram m o.base fuel f.erase = .ok prog)
    (h' : TCompiler.compileProgram m o fuel' f extra = .ok prog') (n : Nat) (input : ReadCtxt) :
    Decoder.run ⟨prog', Compiler.compileOne o.base⟩ n input = Decoder.run ⟨prog, Compiler.compileOne o.base⟩ n input :=
  (TCompiler.run_eq hm ho ho' hf hx h h' n input).symm

private def base : BuildOpts := ⟨fun _ l => l, 40⟩
private def opts : TOpts Unit := ⟨base, fun _ l => l, fun _ => true⟩
private def B (l : List UInt8) : TFormat Unit := .byte (ByteSet.fromIter l)

private theorem b_fit {m : Module} {l : List UInt8} {b : UInt8} (h : (ByteSet.fromIter l).contains b = true) :
    (B l).Fit m := ⟨b, h⟩

/-- an item with a byte `a` repeated, then `b` -/
private def item : TFormat Unit := .tuple () [.repeat_ () (B [97]), B [98]]
private def mod1 : Module := ⟨[⟨[], [], item.erase⟩]⟩
/-- a call, a choice that depends on what follows, an optional byte -/
private def fmt : TFormat Unit :=
  .tuple () [.formatCall () 0 [] [] item, .maybe () (.bool true) (B [99]),
    .union () [.repeat_ () (B [97]), B [98]], B [97], B [100]]

private theorem item_fit : item.Fit mod1 :=
  ⟨b_fit (m := mod1) (b := 97) (by decide +kernel), b_fit (m := mod1) (b := 98) (by decide +kernel), trivial⟩

private theorem fmt_fit : fmt.Fit mod1 :=
  ⟨⟨_, rfl, rfl, rfl, rfl, item_fit⟩, ⟨.byte, b_fit (m := mod1) (b := 99) (by decide +kernel)⟩,
    ⟨b_fit (m := mod1) (b := 97) (by decide +kernel), b_fit (m := mod1) (b := 98) (by decide +kernel), trivial⟩,
    b_fit (m := mod1) (b := 97) (by decide +kernel), b_fit (m := mod1) (b := 100) (by decide +kernel), trivial⟩

private theorem mod1_ok : mod1.BytesOk := by
  intro it hit
  simp only [mod1, List.mem_singleton] at hit
  subst hit
  exact TCompiler.fit_bytes item item_fit

/-- The hypotheses hold for a format with a call, an option, loops and a choice that looks ahead; its program decodes
`aab` `c` `a` `ad`. -/
example : ∃ (_ : DecidableEq Next) (_ : DecidableEq (TNext Unit)) (prog prog' : List Decoder) (w : Parsed),
    mod1.BytesOk ∧ opts.base.ord.Valid ∧ opts.ord.Valid ∧ fmt.Fit mod1 ∧
    Compiler.compileProgram mod1 opts.base 20 fmt.erase = .ok prog ∧
    TCompiler.compileProgram mod1 opts 20 fmt [item] = .ok prog' ∧
    Decoder.run ⟨prog', Compiler.compileOne opts.base⟩ 30 ⟨[97, 97, 98, 99, 97, 97, 100], 0⟩ = .ok w :=
  ⟨fun _ _ => Classical.propDecidable _, fun _ _ => Classical.propDecidable _, _, _, _, mod1_ok,
    (fun _ _ _ => Iff.rfl), (fun _ _ _ => Iff.rfl), fmt_fit, rfl, rfl, rfl⟩

/-- **C59.** The code generator makes a program from every typed format whose untyped form the interpreter compiles, and
comes to an end with it.  The format has none of the shapes that are refuted below: `Fit`, and `Usual`, that is no
phantom format, positions have a number type, and the bounds of what a negative lookahead looks for are computed
alike; and it is not just `Fail`. -/
theorem C59_generator_accepts_what_is_interpreted_partial {τ : Type} [DecidableEq Next] [DecidableEq (TNext τ)]
    (m : Module) (o : TOpts τ) (fuel : Nat) (f : TFormat τ) (prog : List Decoder)
    (hm : m.BytesOk) (ho : o.base.ord.Valid) (ho' : o.ord.Valid) (hf : f.Fit m) (hu : f.Usual o.numeric)
    (hfail : f.erase ≠ .fail) (h : Compiler.compileProgram m o.base fuel f.erase = .ok prog) :
    ∃ bound, ∀ fuel', bound ≤ fuel' → ∃ prog', TCompiler.compileProgram m o fuel' f [] = .ok prog' :=
  TCompiler.accepts_ok hm ho ho' hf hu hfail h

/-- The repetition of `a` is not followed by `ab` or by `c` twice. -/
private def fmt2 : TFormat Unit :=
  .tuple () [.formatCall () 0 [] [] item, .pos (), .peekNot () (.union () [.tuple () [B [97], B [98]],
    .repeatCount () (.lit .b8 2) (B [99])]), .maybe () (.bool true) (B [99])]

private theorem fmt2_fit : fmt2.Fit mod1 :=
  ⟨⟨_, rfl, rfl, rfl, rfl, item_fit⟩, trivial,
    ⟨⟨b_fit (m := mod1) (b := 97) (by decide +kernel), b_fit (m := mod1) (b := 98) (by decide +kernel), trivial⟩,
      ⟨Expr.Count.lit.same, b_fit (m := mod1) (b := 99) (by decide +kernel)⟩, trivial⟩,
    ⟨.byte, b_fit (m := mod1) (b := 99) (by decide +kernel)⟩, trivial⟩

/-- The hypotheses hold for a format with a call, a position, a negative lookahead with a count, and an option. -/
example : ∃ (_ : DecidableEq Next) (prog : List Decoder), mod1.BytesOk ∧ opts.base.ord.Valid ∧ opts.ord.Valid ∧
    fmt2.Fit mod1 ∧ fmt2.Usual opts.numeric ∧ fmt2.erase ≠ .fail ∧
    Compiler.compileProgram mod1 opts.base 20 fmt2.erase = .ok prog :=
  ⟨fun _ _ => Classical.propDecidable _, _, mod1_ok, (fun _ _ _ => Iff.rfl), (fun _ _ _ => Iff.rfl), fmt2_fit,
    ⟨⟨trivial, trivial, trivial⟩, rfl, ⟨⟨⟨trivial, trivial, trivial⟩, ⟨rfl, trivial⟩, trivial⟩,
      ⟨⟨trivial, trivial, trivial⟩, trivial, trivial⟩⟩, trivial, trivial⟩, (fun h => nomatch h), rfl⟩

/-- **C59.** The bounds of a count made of literals and data by adding and multiplying are the same for both compilers,
so such counts and sizes always meet `Fit` and `Alike`.  Missing: other operators and casts, refuted below. -/
theorem C59_counts_have_the_same_bounds_partial (e : Expr) (h : e.Count) :
    e.bounds = .ok e.typedBounds ∧ e.SameBounds :=
  ⟨h.bounds_eq, h.same⟩

/-- The bounds of 3 + 2 * 4 are exactly 11. -/
example : (Expr.arith .add (.lit .b8 3) (.arith .mul (.lit .b8 2) (.lit .b8 4))).Count ∧
    (Expr.arith .add (.lit .b8 3) (.arith .mul (.lit .b8 2) (.lit .b8 4))).typedBounds = .exact 11 :=
  ⟨.add .lit (.mul .lit .lit), rfl⟩

/-- Refuted: an optional format is compiled with what follows it by the code generator, on its own by the interpreter.
On `ab`, an optional repetition of `a` and then `ab` is decoded by generated code and rejected by the interpreter. -/
theorem C59_optional_format_refuted :
    ∃ (_ : DecidableEq Next) (_ : DecidableEq (TNext Unit)) (f : TFormat Unit) (o : TOpts Unit)
      (prog prog' : List Decoder) (input : ReadCtxt) (e : DecodeErr) (w : Parsed),
      Compiler.compileProgram Module.empty o.base 20 f.erase = .ok prog ∧
      TCompiler.compileProgram Module.empty o 20 f [] = .ok prog' ∧
      Decoder.run ⟨prog, Compiler.compileOne o.base⟩ 30 input = .err e ∧
      Decoder.run ⟨prog', Compiler.compileOne o.base⟩ 30 input = .ok w :=
  ⟨fun _ _ => Classical.propDecidable _, fun _ _ => Classical.propDecidable _,
    .tuple () [.maybe () (.bool true) (.repeat_ () (B [97])), B [97], B [98]], opts, _, _, ⟨[97, 98], 0⟩, _, _,
    rfl, rfl, rfl, rfl⟩

/-- Refuted: `Align(1)` in what follows a repetition hides the rest from the code generator's trees but not from the
interpreter's.  On `ab`, repeated `a`, `Align(1)` and then `ab` is decoded by the interpreter and rejected by generated
code. -/
theorem C59_trivial_alignment_refuted :
    ∃ (_ : DecidableEq Next) (_ : DecidableEq (TNext Unit)) (f : TFormat Unit) (o : TOpts Unit)
      (prog prog' : List Decoder) (input : ReadCtxt) (w : Parsed) (e : DecodeErr),
      Compiler.compileProgram Module.empty o.base 20 f.erase = .ok prog ∧
      TCompiler.compileProgram Module.empty o 20 f [] = .ok prog' ∧
      Decoder.run ⟨prog, Compiler.compileOne o.base⟩ 30 input = .ok w ∧
      Decoder.run ⟨prog', Compiler.compileOne o.base⟩ 30 input = .err e :=
  ⟨fun _ _ => Classical.propDecidable _, fun _ _ => Classical.propDecidable _,
    .tuple () [.repeat_ () (B [97]), .align 1, B [97], B [98]], opts, _, _, ⟨[97, 98], 0⟩, _, _,
    rfl, rfl, rfl, rfl⟩

/-- Refuted: a format that the interpreter compiles can be refused by the code generator: the inner format of a
phantom is compiled, and may repeat what can be empty. -/
theorem C59_phantom_accepted_refuted :
    ∃ (_ : DecidableEq Next) (_ : DecidableEq (TNext Unit)) (f : TFormat Unit) (o : TOpts Unit) (prog : List Decoder),
      Compiler.compileProgram Module.empty o.base 20 f.erase = .ok prog ∧
      TCompiler.compileProgram Module.empty o 20 f [] = .err () :=
  ⟨fun _ _ => Classical.propDecidable _, fun _ _ => Classical.propDecidable _,
    .phantom () (.repeat_ () (.tuple () [])), opts, _, rfl, rfl⟩

/-- Refuted: casts are unknown to the code generator's bounds.  Between 0 and 2 repetitions, with the numbers cast to
`u8`, are compiled by the interpreter; the code generator panics. -/
theorem C59_cast_counts_compile_refuted :
    ∃ (_ : DecidableEq Next) (_ : DecidableEq (TNext Unit)) (f : TFormat Unit) (o : TOpts Unit) (prog : List Decoder),
      Compiler.compileProgram Module.empty o.base 20 f.erase = .ok prog ∧
      TCompiler.compileProgram Module.empty o 20 f [] = .panic :=
  ⟨fun _ _ => Classical.propDecidable _, fun _ _ => Classical.propDecidable _,
    .tuple () [.repeatBetween () (.asNum .b8 (.lit .b32 0)) (.asNum .b8 (.lit .b32 2)) (B [97]), B [98]], opts, _,
    rfl, rfl⟩

/-- Refuted: a repetition of three bytes is refused by the code generator as possibly empty if the number three is
cast. -/
theorem C59_cast_count_not_nullable_refuted :
    ∃ (_ : DecidableEq Next) (_ : DecidableEq (TNext Unit)) (f : TFormat Unit) (o : TOpts Unit) (prog : List Decoder),
      Compiler.compileProgram Module.empty o.base 20 f.erase = .ok prog ∧
      TCompiler.compileProgram Module.empty o 20 f [] = .err () :=
  ⟨fun _ _ => Classical.propDecidable _, fun _ _ => Classical.propDecidable _,
    .repeat_ () (.repeatCount () (.asNum .b32 (.lit .b8 3)) (B [97])), opts, _, rfl, rfl⟩

/-- Refuted: the code generator accepts `PeekNot(SkipRemainder)`, which has no bounded lookahead and is refused by the
interpreter. -/
theorem C59_peek_not_lookahead_refuted :
    ∃ (_ : DecidableEq Next) (_ : DecidableEq (TNext Unit)) (f : TFormat Unit) (o : TOpts Unit) (prog' : List Decoder),
      Compiler.compileProgram Module.empty o.base 20 f.erase = .err () ∧
      TCompiler.compileProgram Module.empty o 20 f [] = .ok prog' :=
  ⟨fun _ _ => Classical.propDecidable _, fun _ _ => Classical.propDecidable _,
    .peekNot () .skipRemainder, opts, _, rfl, rfl⟩

/-- Refuted: neither compiler is free of panics where the other one has none: `Align(0)` after a repetition panics in
the interpreter's compiler only, a format that is just `Fail` in the code generator's only. -/
theorem C59_same_panics_refuted :
    ∃ (_ : DecidableEq Next) (_ : DecidableEq (TNext Unit)) (f g : TFormat Unit) (o : TOpts Unit)
      (prog prog' : List Decoder),
      Compiler.compileProgram Module.empty o.base 20 f.erase = .panic ∧
      TCompiler.compileProgram Module.empty o 20 f [] = .ok prog' ∧
      Compiler.compileProgram Module.empty o.base 20 g.erase = .ok prog ∧
      TCompiler.compileProgram Module.empty o 20 g [] = .panic :=
  ⟨fun _ _ => Classical.propDecidable _, fun _ _ => Classical.propDecidable _,
    .tuple () [.repeat_ () (B [97]), .align 0, B [98]], .fail, opts, _, _, rfl, rfl, rfl, rfl⟩

end Doodle
