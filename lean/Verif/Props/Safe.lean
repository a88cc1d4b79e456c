import Verif.Lemmas.Safe
import Verif.Props.Sound
import Verif.Props.Lookahead

/-! # C55: decoding panics only where the format asks for the impossible

`Safe` (in `Verif.Spec.Safe`) says that every expression of a format that is reached has a value of the kind the format
needs, that no position leaves the address space, that some pattern of every match applies, and that a repetition with
bounds has the lower bound zero. -/

namespace Doodle

open Grammar Compiler

theorem SafeRun.tree_index {m : Module} {o : BuildOpts} {M : List ((Nat × Next) × Nat)} (ho : o.ord.Valid) :
    ∀ fs next t, (CRel.both m o M).tree fs next t → ∀ c i, t.matches c = some i → i < fs.length := by
  rintro fs next t (h | h) c i hi
  · obtain ⟨f, _, hf, _⟩ := C13_selected m o.ord ho o.fuel fs next t h c i hi
    exact (List.getElem?_eq_some_iff.1 hf).1
  · obtain ⟨f, _, hf, _⟩ := C13_selected .empty o.ord ho o.fuel fs next t h c i hi
    exact (List.getElem?_eq_some_iff.1 hf).1

/-- Whatever the input, the decoder compiled from a format that asks for nothing impossible does not panic: it returns a
value, or an error, or is still running.  (`c` need not be the beginning of the input.) -/
theorem C55_no_panic_partial [DecidableEq Next] (m : Module) (o : BuildOpts) (ho : o.ord.Valid) (cfuel : Nat) (f : Format)
    (prog : List Decoder) (hp : compileProgram m o cfuel f = .ok prog) (c : ReadCtxt)
    (hf : Safe m (fun g => ∃ d, (env o prog).compileOne g = .ok (some d)) f .empty c) (fuel : Nat) :
    Decoder.run (env o prog) fuel c ≠ .panic := by
  obtain ⟨M, ⟨d, hd, hc⟩, hM⟩ := compileProgram_spec m o cfuel f prog hp
  have := SafeRun.parse (linked hM) (SafeRun.tree_index ho) (fun _ h => h) fuel f .empty d .empty .empty c
    (hc.mono (CRel.of_le_both m o M)) .empty hf
  intro h
  refine this ?_
  change (do let d ← Outcome.ofPanicky (Panicky.unwrap prog[0]?); Decoder.parse (env o prog) fuel d .empty c) = _ at h
  rw [hd] at h
  exact h

/-- The lower bound of a repetition with bounds really has to be zero: with one or two bytes `a` required, input that does
not begin with an `a` is met with a panic instead of an error. -/
theorem C55_between_refuted : ∃ (_ : DecidableEq Next) (prog : List Decoder),
    compileProgram .empty ⟨fun _ l => l, 20⟩ 20 (.repeatBetween (.lit .b32 1) (.lit .b32 2) (.byte (ByteSet.fromIter [97]))) = .ok prog ∧
    Decoder.run (env ⟨fun _ l => l, 20⟩ prog) 20 ⟨[98], 0⟩ = .panic :=
  ⟨fun _ _ => Classical.propDecidable _, _, rfl, rfl⟩

/-! ## A case that meets the hypotheses -/

/-- a length, and that many bytes of which none is larger than 9 -/
private def demo : Format := .letFormat (.byte (ByteSet.fromIter [0, 1, 2])) "n"
  (.repeatCount (.var "n") (.where_ (.byte (ByteSet.fromIter [1, 10])) (.lambda "x" (.intRel .lte (.var "x") (.lit .b8 9))) true))

example (codes : Format → Prop) (c : ReadCtxt) : Safe .empty codes demo .empty c := by
  refine .letFormat .byte fun v c' k h => ?_
  cases h
  rename_i b _ _
  refine .repeatCount (n := b.toNat) ⟨_, rfl, rfl⟩ fun vs c'' k' _ _ => .where_ .byte fun v c3 k3 h => ?_
  cases h
  exact ⟨_, rfl⟩

example : ∃ (_ : DecidableEq Next) (prog : List Decoder) (w : Parsed), compileProgram .empty ⟨fun _ l => l, 20⟩ 20 demo = .ok prog ∧
    Decoder.run (env ⟨fun _ l => l, 20⟩ prog) 20 ⟨[2, 1, 1, 5], 0⟩ = .ok w :=
  ⟨fun _ _ => Classical.propDecidable _, _, _, rfl, rfl⟩

end Doodle
