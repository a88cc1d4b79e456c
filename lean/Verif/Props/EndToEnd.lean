import Verif.Props.Gen
import Verif.Props.TypedCompile
import Verif.Props.Complete
import Verif.Props.Sound
import Verif.Props.Safe
import Verif.Props.Terminate
import Verif.Lemmas.GenMono

/-!
C61: from the format to its generated decoder.  The theorems about the two compilers (C59), about generated code (C50)
and about the meaning of formats (C11, C12, C55) are put together: what the code generated for a format reads is what
the interpreter reads, and what the format says.
-/

namespace Doodle
namespace Gen

open Rt (Parser PErr ByteOffset)
open Grammar Compiler

/-- The step limit of the model of generated code decides nothing: a result reached within one limit is reached within every
larger one. -/
theorem C61_fuel (prog' : List Decoder) (n k : Nat) (p : Parser) (hn : run prog' n p ≠ .fuel) : run prog' (n + k) p = run prog' n p :=
  run_mono rfl hn k

private theorem faithful [inst : DecidableEq Next] {o : BuildOpts} (ho : o.ord.Valid) (hf : 6 ≤ o.fuel)
    {program : List Decoder} : Faithful ⟨program, Compiler.compileOne o⟩ := fun _ _ h => ⟨inst, o, ho, hf, h⟩

section
variable {τ : Type} [DecidableEq Next] [DecidableEq (TNext τ)] (m : Module) (o : TOpts τ) (fuel fuel' : Nat)
  (f : TFormat τ) (extra : List (TFormat τ)) (prog prog' : List Decoder) (hm : m.BytesOk) (ho : o.base.ord.Valid)
  (hfuel : 6 ≤ o.base.fuel) (ho' : o.ord.Valid) (hf : f.Fit m) (hx : ∀ g ∈ extra, g.Fit m)
  (h : Compiler.compileProgram m o.base fuel f.erase = .ok prog)
  (h' : TCompiler.compileProgram m o fuel' f extra = .ok prog')

include hm ho hfuel ho' hf hx h h'

/-- **C61, the interpreter's answer.** The interpreter compiles the format; the code generator compiles the typed format to
a program of its own and writes code for it.  Whatever the interpreter answers, a value or an error, the generated
code answers too, with the same value (without the marks that only the interpreter puts) and the same end.

Partial: as C59 (`Fit`) and C50 (`ProgramOk`). -/
theorem C61_answers_partial {q : Nat → Ctx} (hok : ProgramOk q true prog') (bytes : List UInt8)
    (hb : 8 * bytes.length < usizeCard) (n : Nat) :
    (∀ w, Decoder.run (env o.base prog) n (.new bytes) = .ok w → ∃ p, run prog' n (.new bytes) = .ok (erase w.value.1) p ∧
      p.offset = .bytes w.value.2.offset) ∧
    (∀ e, Decoder.run (env o.base prog) n (.new bytes) = .err e → ∃ e' p, run prog' n (.new bytes) = .err e' p) := by
  have heq := C59_generated_program_decodes_as_interpreted_partial m o fuel fuel' f extra prog prog' hm ho ho' hf hx h h' n
    (.new bytes)
  constructor
  · intro w hw
    exact C50_generated_complete_partial (env := ⟨prog', Compiler.compileOne o.base⟩) (faithful ho hfuel) (programOk_weaken hok) hb
      (heq.trans hw)
  · intro e he
    exact C50_generated_fails_partial (env := ⟨prog', Compiler.compileOne o.base⟩) (faithful ho hfuel) hok hb (heq.trans he)

/-- **C61, values.** The same for values alone; this covers programs that decide some failures differently, such as those
with repetitions of at least one element. -/
theorem C61_values_partial {q : Nat → Ctx} (hok : ProgramOk q false prog') (bytes : List UInt8)
    (hb : 8 * bytes.length < usizeCard) (n : Nat) (w : Parsed)
    (hw : Decoder.run (env o.base prog) n (.new bytes) = .ok w) :
    ∃ p, run prog' n (.new bytes) = .ok (erase w.value.1) p ∧ p.offset = .bytes w.value.2.offset := by
  have heq := C59_generated_program_decodes_as_interpreted_partial m o fuel fuel' f extra prog prog' hm ho ho' hf hx h h' n
    (.new bytes)
  exact C50_generated_complete_partial (env := ⟨prog', Compiler.compileOne o.base⟩) (faithful ho hfuel) hok hb
    (heq.trans hw)

/-- **C61, the end.** If the interpreter comes to an end on the input and the format asks for nothing impossible (`Safe`), so does
the generated code: from some step limit on it has one and the same result, and that is no panic. -/
theorem C61_ends_partial {q : Nat → Ctx} (hok : ProgramOk q true prog') (bytes : List UInt8)
    (hb : 8 * bytes.length < usizeCard)
    (hs : Safe m (fun g => ∃ d, (env o.base prog).compileOne g = .ok (some d)) f.erase .empty (.new bytes))
    (hn : ∃ N, Decoder.run (env o.base prog) N (.new bytes) ≠ .fuel) :
    ∃ N r, (∀ n, N ≤ n → run prog' n (.new bytes) = r) ∧ ((∃ v p, r = .ok v p) ∨ ∃ e p, r = .err e p) := by
  obtain ⟨N, hN⟩ := hn
  have hp := C55_no_panic_partial m o.base ho fuel f.erase prog h (.new bytes) hs N
  have key : (∃ v p, run prog' N (.new bytes) = .ok v p) ∨ ∃ e p, run prog' N (.new bytes) = .err e p := by
    have ha := C61_answers_partial m o fuel fuel' f extra prog prog' hm ho hfuel ho' hf hx h h' hok bytes hb N
    cases hr : Decoder.run (env o.base prog) N (.new bytes) with
    | ok w => obtain ⟨p, h1, _⟩ := ha.1 w hr; exact .inl ⟨_, _, h1⟩
    | err e => obtain ⟨e', p, h1⟩ := ha.2 e hr; exact .inr ⟨_, _, h1⟩
    | panic => exact absurd hr hp
    | fuel => exact absurd hr hN
  refine ⟨N, _, fun n hn => ?_, key⟩
  obtain ⟨k, rfl⟩ := Nat.le.dest hn
  refine run_mono rfl (fun hfu => ?_) k
  rw [hfu] at key
  rcases key with ⟨v, p, h⟩ | ⟨e, p, h⟩ <;> cases h

/-- Formats whose loop bodies read something (`LoopsMove`) give generated code that comes to an end on every input on which
the format asks for nothing impossible. -/
theorem C61_terminates_partial {q : Nat → Ctx} (hok : ProgramOk q true prog') (bytes : List UInt8)
    (hb : 8 * bytes.length < usizeCard) (hml : m.LoopsMove)
    (hfl : f.erase.LoopsMove m m.items.length)
    (hs : Safe m (fun g => ∃ d, (env o.base prog).compileOne g = .ok (some d)) f.erase .empty (.new bytes)) :
    ∃ N r, (∀ n, N ≤ n → run prog' n (.new bytes) = r) ∧ ((∃ v p, r = .ok v p) ∨ ∃ e p, r = .err e p) := by
  obtain ⟨N, hN, _⟩ := C14_terminates_partial m hml o.base ho hfuel fuel f.erase hfl prog h (.new bytes) (Nat.zero_le _)
  exact C61_ends_partial m o fuel fuel' f extra prog prog' hm ho hfuel ho' hf hx h h' hok bytes hb hs ⟨N, hN⟩

/-- **C61, soundness.** A value that the generated code reads is a value the format derives from the bytes read, without
the marks that only the interpreter puts.  The format asks for nothing impossible (`Safe`), and the interpreter comes to
an end on this input. -/
theorem C61_derived_partial {q : Nat → Ctx} (hok : ProgramOk q true prog') (bytes : List UInt8)
    (hb : 8 * bytes.length < usizeCard)
    (hd : ∀ (i : Nat) (it : Item), m.items[i]? = some it → it.format.definite = true) (hfd : f.erase.definite = true)
    (hs : Safe m (fun g => ∃ d, (env o.base prog).compileOne g = .ok (some d)) f.erase .empty (.new bytes))
    (hn : ∃ N, Decoder.run (env o.base prog) N (.new bytes) ≠ .fuel) (n : Nat) (v : Value) (p : Parser)
    (hr : run prog' n (.new bytes) = .ok v p) :
    ∃ v' c' k, Parses m (fun _ _ _ => False) f.erase .empty (.new bytes) v' c' k ∧ v = erase v' ∧
      p.offset = .bytes c'.offset := by
  obtain ⟨N, hN⟩ := hn
  have hN' : Decoder.run (env o.base prog) (N + n) (.new bytes) ≠ .fuel := by
    rw [C14_fuel _ N n _ hN]; exact hN
  have hr' : run prog' (N + n) (.new bytes) = .ok v p := by
    rw [Nat.add_comm]
    exact run_mono hr (fun h => nomatch h) N
  have heq := C59_generated_program_decodes_as_interpreted_partial m o fuel fuel' f extra prog prog' hm ho ho' hf hx h h'
    (N + n) (.new bytes)
  have hp := C55_no_panic_partial m o.base ho fuel f.erase prog h (.new bytes) hs (N + n)
  obtain ⟨w, hw, h1, h2⟩ := (C50_generated_sound_partial (env := ⟨prog', Compiler.compileOne o.base⟩) (faithful ho hfuel) hok hb
    (fuel := N + n) (by rw [heq]; exact hp) (by rw [heq]; exact hN')).1 v p hr'
  exact ⟨_, _, _, C11_sound_definite m o.base fuel f.erase prog hd hfd h (N + n) (.new bytes) w (heq.symm.trans hw), h1, h2⟩

/-- **C61, rejection.** An input of which the format derives nothing is refused by the generated code with an error: it
neither reads a value nor panics nor runs on. -/
theorem C61_rejects_partial {q : Nat → Ctx} (hok : ProgramOk q true prog') (bytes : List UInt8)
    (hb : 8 * bytes.length < usizeCard) (hml : m.LoopsMove)
    (hfl : f.erase.LoopsMove m m.items.length)
    (hd : ∀ (i : Nat) (it : Item), m.items[i]? = some it → it.format.definite = true) (hfd : f.erase.definite = true)
    (hs : Safe m (fun g => ∃ d, (env o.base prog).compileOne g = .ok (some d)) f.erase .empty (.new bytes))
    (hnone : ∀ v c k, ¬ Parses m (fun _ _ _ => False) f.erase .empty (.new bytes) v c k) :
    ∃ N e p, ∀ n, N ≤ n → run prog' n (.new bytes) = .err e p := by
  obtain ⟨M, hM, _⟩ := C14_terminates_partial m hml o.base ho hfuel fuel f.erase hfl prog h (.new bytes) (Nat.zero_le _)
  obtain ⟨N, r, h1, h2⟩ := C61_ends_partial m o fuel fuel' f extra prog prog' hm ho hfuel ho' hf hx h h' hok bytes hb hs ⟨M, hM⟩
  rcases h2 with ⟨v, p, rfl⟩ | ⟨e, p, rfl⟩
  · obtain ⟨v', c', k, h3, _⟩ := C61_derived_partial m o fuel fuel' f extra prog prog' hm ho hfuel ho' hf hx h h' hok bytes hb hd hfd
      hs ⟨M, hM⟩ N v p (h1 N (Nat.le_refl _))
    exact absurd h3 (hnone v' c' k)
  · exact ⟨N, e, p, h1⟩

/-- **C61, completeness.** A derivation that covers the whole input is found by the generated code. -/
theorem C61_found_partial {q : Nat → Ctx} (hok : ProgramOk q false prog') (bytes : List UInt8)
    (hb : 8 * bytes.length < usizeCard) (E : Nat → Bool) (tr : Bool) (hpl : m.Plain E) (hrg : m.Regular E o.base tr)
    (hfp : f.erase.Plain m E m.items.length true) (hfr : f.erase.Regular m E o.base tr) (c' : ReadCtxt) (v : Value)
    (k : Nat) (hd : Parses m (fun _ _ _ => False) f.erase .empty (.new bytes) v c' k) (hk : tr = true ∨ k = 0)
    (hw : c'.input.length ≤ c'.offset) :
    ∃ N, ∀ n, N ≤ n → ∃ p, run prog' n (.new bytes) = .ok (erase v) p ∧ p.offset = .bytes c'.offset := by
  obtain ⟨N, w, h1, _, h3⟩ := C12_whole_partial m E o.base tr hpl hrg ho fuel f.erase hfp hfr prog h (.new bytes) c' v k hd
    hk hw
  refine ⟨N, fun n hn => ?_⟩
  have heq := C59_generated_program_decodes_as_interpreted_partial m o fuel fuel' f extra prog prog' hm ho ho' hf hx h h' n
    (.new bytes)
  obtain ⟨p, h4, h5⟩ := C50_generated_complete_partial (env := ⟨prog', Compiler.compileOne o.base⟩) (faithful ho hfuel) hok hb
    (heq.trans (h3 n hn))
  rw [h1] at h4 h5
  exact ⟨p, h4, h5⟩
end

/-! ### a format that meets the hypotheses -/

private def base : BuildOpts := ⟨fun _ l => l, 40⟩
private def opts : TOpts Unit := ⟨base, fun _ l => l, fun _ => true⟩
private def B (b : UInt8) : TFormat Unit := .byte (.singleton b)

/-- a choice between `a` in a variant and a `b` and a `c`, then a `d` -/
private def demo : TFormat Unit :=
  .tuple () [.union () [.variant () "A" (B 97), .variant () "B" (.tuple () [B 98, B 99])], B 100]

private def demoDecoder : Decoder :=
  .tuple [.branch (.node none [(.singleton 97, .node (some 0) []), (.singleton 98, .node (some 1) [])])
    [.variant "A" (.byte (.singleton 97)), .variant "B" (.tuple [.byte (.singleton 98), .byte (.singleton 99)])],
    .byte (.singleton 100)]

private theorem single_inh (b : UInt8) : (ByteSet.singleton b).Inhabited :=
  ⟨b, by rw [ByteSet.C01_contains_singleton]⟩

private theorem demo_fit : demo.Fit .empty :=
  ⟨⟨⟨(fun h => h), single_inh 97⟩, ⟨(fun h => h), single_inh 98, single_inh 99, trivial⟩, trivial⟩, single_inh 100, trivial⟩

private theorem demo_ok : ProgramOk (fun _ => Ctx.top true) true [demoDecoder] := by
  refine ⟨⟨fun _ _ => rfl, rfl, id, id, id, id, id⟩, ?_⟩
  intro n d hd
  have : d = demoDecoder := by
    cases n with
    | zero => cases hd; rfl
    | succ n => cases hd
  subst this
  have h1 : (ByteSet.singleton 97).isFull = false := by decide +kernel
  have h2 : (ByteSet.singleton 98).isFull = false := by decide +kernel
  simp [demoDecoder, Fragment, FragmentAll, LeafTree, LeafBranches, Ctx.top, h1, h2]

private theorem demo_plain : demo.erase.Plain .empty (fun _ => false) 0 true ∧
    demo.erase.Regular .empty (fun _ => false) base true := by
  constructor
  · simp only [demo, B, TFormat.erase, TFormat.eraseList, Format.Plain, Format.FieldsPlain, Format.EachPlain]
    exact ⟨⟨by simp, single_inh 97, ⟨single_inh 98, single_inh 99, trivial⟩, trivial⟩, single_inh 100, trivial⟩
  · simp [Format.Regular, demo, B, TFormat.erase, TFormat.eraseList, Format.Each, Format.EachOf, Format.RegularHere]

/-- All hypotheses of the three theorems hold, for the input `bcd`. -/
example : ∃ (_ : DecidableEq Next) (_ : DecidableEq (TNext Unit)) (v : Value) (w : Parsed),
    Compiler.compileProgram .empty opts.base 9 demo.erase = .ok [demoDecoder] ∧
    TCompiler.compileProgram .empty opts 9 demo [] = .ok [demoDecoder] ∧
    (∀ rej, Parses .empty rej demo.erase .empty (.new [98, 99, 100]) v ⟨[98, 99, 100], 3⟩ 0) ∧
    demo.erase.definite = true ∧ (∀ codes, Safe .empty codes demo.erase .empty (.new [98, 99, 100])) ∧
    Decoder.run (env opts.base [demoDecoder]) 9 (.new [98, 99, 100]) = .ok w := by
  refine ⟨fun _ _ => Classical.propDecidable _, fun _ _ => Classical.propDecidable _,
    .tuple [.branch 1 (.variant "B" (.tuple [.u8 98, .u8 99])), .u8 100], _, rfl, rfl, ?_, rfl, ?_, rfl⟩
  · intro rej
    exact .tuple (.fcons (k := 0) (k' := 0) (.union (i := 1) rfl (.variant (.tuple (.fcons (k := 0) (k' := 0)
      (.byte rfl (by decide +kernel)) (.fcons (k := 0) (k' := 0) (.byte rfl (by decide +kernel)) .fnil)))))
      (.fcons (k := 0) (k' := 0) (.byte rfl (by decide +kernel)) .fnil))
  · intro codes
    have two : ∀ (f g : Format) (c : ReadCtxt), (∀ c, Safe .empty codes f .empty c) → (∀ c, Safe .empty codes g .empty c) →
        Safe .empty codes (.tuple [f, g]) .empty c := fun f g c hf hg => .tuple fun i h vs c' k hi _ => by
      match i with
      | 0 => cases hi; exact hf c'
      | 1 => cases hi; exact hg c'
      | i + 2 => cases hi
    refine two _ _ _ (fun c => .union fun f hf => ?_) fun _ => .byte
    rcases List.mem_cons.1 hf with rfl | hf
    · exact .variant .byte
    · rcases List.mem_cons.1 hf with rfl | hf
      · exact .variant (two _ _ _ (fun _ => .byte) fun _ => .byte)
      · cases hf

/-- Its loops (there are none) move on, and of the input `x` it derives nothing. -/
example : 6 ≤ opts.base.fuel ∧ Module.LoopsMove .empty ∧ demo.erase.LoopsMove .empty 0 ∧
    ∀ v c k, ¬ Parses .empty (fun _ _ _ => False) demo.erase .empty (.new [120]) v c k := by
  refine ⟨by decide, (fun i it h => nomatch h), by simp [demo, B, TFormat.erase, TFormat.eraseList, Format.LoopsMove, Format.AllLoopsMove], ?_⟩
  intro v c k h
  simp only [demo, B, TFormat.erase, TFormat.eraseList] at h
  cases h with
  | tuple h =>
    cases h with
    | fcons h _ =>
      cases h with
      | @union _ i _ _ _ _ _ _ hi h =>
        match i with
        | 0 =>
          cases hi
          cases h with
          | variant h =>
            cases h with
            | byte hb hc => cases hb; exact absurd hc (by decide +kernel)
        | 1 =>
          cases hi
          cases h with
          | variant h =>
            cases h with
            | tuple h =>
              cases h with
              | fcons h _ =>
                cases h with
                | byte hb hc => cases hb; exact absurd hc (by decide +kernel)
        | i + 2 => cases hi

end Gen
end Doodle
