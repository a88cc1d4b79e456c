import Verif.Lemmas.FormatSound
import Verif.Props.Sound

/-!
Property C23: well-typed formats decode to values of their type.

`Value.HasType σ v t` (Spec/Typing.lean) says that `v` is a value of type `t`, `Module.Defined`
(Spec/FormatSound.lean) that a module was built by defining its items one after the other.  The full
statement

  `m.Defined tys → f.inferType m tys [] = .ok t → compileProgram m o n f = .ok prog →
    Decoder.run (env o prog) fuel c = .ok w → w.value.1.HasType σ t`

is false even for the most lax reading of `HasType` (`C23_…_refuted`); what is proved is the statement
under side conditions (`Kept`, or `TypePlain`, which can be read off the format).
-/

namespace Doodle

open Grammar Compiler

/-- Every value that a format of a kept module derives has the type inferred for the format, whatever
counts as a rejected format.  Missing from the full property: formats that are not `Kept`. -/
theorem C23_derivation_partial {σ : Slack} (hf : σ.fallbacks ≠ .typed) (m : Module) (tys : List ItemTypes)
    (hm : m.Defined tys) (hk : m.Kept σ tys) (f : Format) (t : ValueType) (hkf : f.Kept σ m tys [])
    (ht : f.inferType m tys [] = .ok t) (rej : Format → Scope Format → ReadCtxt → Prop) (c c' : ReadCtxt)
    (v : Value) (n : Nat) (h : Parses m rej f .empty c v c' n) : v.HasType σ t :=
  Parses.typed hf hm.typed hk (hm.itemsWF hf hk .refl) h [] t (fun _ _ h => nomatch h) (fun _ _ h => nomatch h)
    (fun _ _ _ h => nomatch h) (fun _ _ h => nomatch h) hkf ht

/-- Inferred types are well-formed: the alternatives of unions are sorted and distinct. -/
theorem C23_wf_partial {σ : Slack} (hf : σ.fallbacks ≠ .typed) (m : Module) (tys : List ItemTypes)
    (hm : m.Defined tys) (hk : m.Kept σ tys) (f : Format) (t : ValueType) (hkf : f.Kept σ m tys [])
    (ht : f.inferType m tys [] = .ok t) : t.WF :=
  Format.infer_wf hf (hm.itemsWF hf hk .refl) .refl f [] t (fun _ _ h => nomatch h) (fun _ _ h => nomatch h)
    hkf ht

/-- Every value that the compiled program of a well-typed format returns has the type of the format. -/
theorem C23_decode_partial [DecidableEq Next] {σ : Slack} (hf : σ.fallbacks ≠ .typed) (m : Module)
    (tys : List ItemTypes) (hm : m.Defined tys) (hk : m.Kept σ tys) (f : Format) (t : ValueType)
    (hkf : f.Kept σ m tys []) (ht : f.inferType m tys [] = .ok t) (o : BuildOpts) (cfuel : Nat)
    (prog : List Decoder) (hp : compileProgram m o cfuel f = .ok prog) (fuel : Nat) (c : ReadCtxt) (w : Parsed)
    (h : Decoder.run (env o prog) fuel c = .ok w) : w.value.1.HasType σ t := by
  obtain ⟨M, hM⟩ := C11_sound_partial m o cfuel f prog hp fuel c w h
  exact C23_derivation_partial hf m tys hm hk f t hkf ht _ _ _ _ _ hM

/-- The same for plain formats and modules, a condition on their text alone. -/
theorem C23_plain_partial [DecidableEq Next] {σ : Slack} (hf : σ.fallbacks ≠ .typed) (m : Module)
    (tys : List ItemTypes) (hm : m.Defined tys) (hk : m.TypePlain σ tys) (f : Format) (t : ValueType)
    (hkf : f.TypePlain σ tys) (ht : f.inferType m tys [] = .ok t) (o : BuildOpts) (cfuel : Nat)
    (prog : List Decoder) (hp : compileProgram m o cfuel f = .ok prog) (fuel : Nat) (c : ReadCtxt) (w : Parsed)
    (h : Decoder.run (env o prog) fuel c = .ok w) : w.value.1.HasType σ t :=
  C23_decode_partial hf m tys hm (hk.kept hf hm) f t
    (Format.TypePlain.kept hf (hm.plainWF hf hk .refl) (fun _ _ h => h) f [] t (fun _ _ h => nomatch h)
      (fun _ _ h => nomatch h) hkf ht) ht o cfuel prog hp fuel c w h

/-- Defining further items does not change the type inferred for a format. -/
theorem C23_extension {m m' : Module} {tys tys' : List ItemTypes} {args : List (String × ValueType)}
    {views : List String} {g : Format} (h : m.define tys args views g = .ok (m', tys')) (f : Format)
    (Γ : TypeScope) (t : ValueType) (ht : f.inferType m tys Γ = .ok t) : f.inferType m' tys' Γ = .ok t :=
  Format.infer_ext (Module.define_ext h) f Γ t ht

/-! ## A format that meets the hypotheses -/

private def opts : BuildOpts := ⟨fun _ l => l, 20⟩

private def u8 (n : Fin 256) : Expr := .lit .b8 n

/-- an item with an argument: `n` bytes -/
private def block : Format := .repeatCount (.var "n") (.byte ByteSet.full)

private def sampleModule : Module := ⟨[⟨["n"], [], block⟩]⟩
private def sampleTypes : List ItemTypes := [⟨[.u .b8], .seq (.u .b8)⟩]

/-- a length byte, then so many bytes, then `A` with a byte 1 or `B` with nothing -/
private def sample : Format :=
  .letFormat (.byte ByteSet.full) "len"
    (.tuple [.itemVar 0 [.var "len"] [],
      .union [.variant "A" (.byte (ByteSet.fromIter [1])),
        .variant "B" (.map (.byte (ByteSet.fromIter [2])) (.lambda "x" (.arith .add (.var "x") (u8 1))))]])

private theorem sample_defined : Module.Defined sampleModule sampleTypes :=
  .define .empty (args := [("n", .u .b8)]) (views := []) (f := block) (by with_unfolding_all rfl)

private theorem sample_plain : sampleModule.TypePlain .nominal sampleTypes := by
  constructor
  · intro level it h
    match level with
    | 0 => cases h; simp [block, Format.TypePlain]
    | i + 1 => simp [sampleModule] at h
  · intro level ty h
    match level with
    | 0 => cases h; simp [ValueType.RigidList, ValueType.u, ValueType.Rigid]
    | i + 1 => simp [sampleTypes] at h

example : sample.TypePlain .nominal sampleTypes := by
  simp [sample, Format.TypePlain, Format.TypePlainList, Expr.PlainList, Expr.Plain, sampleTypes,
    ValueType.RigidList, ValueType.u, ValueType.Rigid, u8]

example : sample.inferType sampleModule sampleTypes [] =
    .ok (.tuple [.seq (.u .b8), .union [("A", .u .b8), ("B", .u .b8)]]) := by
  with_unfolding_all rfl

example : ∃ (_ : DecidableEq Next) (prog : List Decoder) (w : Parsed),
    compileProgram sampleModule opts 5 sample = .ok prog ∧
    Decoder.run (env opts prog) 20 ⟨[2, 7, 8, 2], 0⟩ = .ok w ∧
    w.value.1.HasType .nominal (.tuple [.seq (.u .b8), .union [("A", .u .b8), ("B", .u .b8)]]) := by
  refine ⟨fun _ _ => Classical.propDecidable _, _, _, rfl, rfl, ?_⟩
  refine @C23_plain_partial (fun _ _ => Classical.propDecidable _) .nominal (by decide) sampleModule sampleTypes
    sample_defined sample_plain sample _ ?_ (by with_unfolding_all rfl) opts 5 _ rfl 20 ⟨[2, 7, 8, 2], 0⟩ _ rfl
  simp [sample, Format.TypePlain, Format.TypePlainList, Expr.PlainList, Expr.Plain, sampleTypes,
    ValueType.RigidList, ValueType.u, ValueType.Rigid, u8]

/-- A kept format that is not plain: `Pos` bound by `LetFormat`. -/
private def sampleU64 : Format := .letFormat .pos "x" (.compute (.arith .add (.var "x") (.lit .b64 1)))

example : sampleU64.Kept .nominal .empty [] [] ∧ sampleU64.inferType .empty [] [] = .ok (.u .b64) := by
  constructor
  · simp only [sampleU64, Format.Kept, Expr.Kept]
    refine ⟨⟨trivial, trivial⟩, fun t h => ?_⟩
    have h0 : (Format.compute (.arith .add (.var "x") (.lit .b64 1))).inferType .empty []
        [("x", .value .numericHole)] = .ok (.u .b64) := by with_unfolding_all rfl
    rw [h0] at h
    cases h
    exact ⟨.base, .u .b64, by with_unfolding_all rfl, .base⟩
  · with_unfolding_all rfl

/-! ## What does not hold -/

/-- `Pos` is typed with an open numeric type but decodes to a `U64`: `let x = Pos in [x, 1u32]` is typed
`Seq U32`, and its first element is a `U64`. -/
theorem C23_pos_refuted : ∃ (_ : DecidableEq Next) (f : Format) (t : ValueType) (o : BuildOpts)
    (prog : List Decoder) (c : ReadCtxt) (w : Parsed), f.inferType .empty [] [] = .ok t ∧
    compileProgram .empty o 5 f = .ok prog ∧ Decoder.run (env o prog) 20 c = .ok w ∧
    ¬ w.value.1.HasType .lax t := by
  refine ⟨fun _ _ => Classical.propDecidable _,
    .letFormat .pos "x" (.compute (.seq [.var "x", .lit .b32 1])), .seq (.u .b32), opts, _, ⟨[], 0⟩, _,
    by with_unfolding_all rfl, rfl, rfl, ?_⟩
  change ¬ Value.HasType .lax (.seq (.strict [.num (.fixed .b64) 0, .num (.fixed .b32) 1])) _
  simp [Value.HasType, Value.AllHave, ValueType.u]

/-- The accumulator of `AccumUntil` is unified with its annotation, and the result of the unification is
discarded: the accumulator is typed `Union{A: U8}` and comes out as `B(true)`. -/
theorem C23_accumUntil_refuted : ∃ (_ : DecidableEq Next) (f : Format) (t : ValueType) (o : BuildOpts)
    (prog : List Decoder) (c : ReadCtxt) (w : Parsed), f.inferType .empty [] [] = .ok t ∧
    compileProgram .empty o 5 f = .ok prog ∧ Decoder.run (env o prog) 20 c = .ok w ∧
    ¬ w.value.1.HasType .lax t := by
  refine ⟨fun _ _ => Classical.propDecidable _,
    .accumUntil (.lambda "p" (.intRel .eq (.seqLength (.tupleProj (.var "p") 1)) (.lit .b32 1)))
      (.lambda "q" (.variant "B" (.bool true))) (.variant "A" (u8 0)) (.union [("A", .u .b8)])
      (.byte ByteSet.full), .tuple [.union [("A", .u .b8)], .seq (.u .b8)], opts, _, ⟨[7], 0⟩, _,
    by with_unfolding_all rfl, rfl, rfl, ?_⟩
  change ¬ Value.HasType .lax (.tuple [.variant "B" (.bool true), .seq (.strict [.u8 7])]) _
  simp [Value.HasType, Value.HaveTypes, TMap.get]

/-- The parameter of the termination function of `AccumUntil` is in scope where the update function is
typed, but not where it runs: with an outer variable of the same name, the update function is typed with
the one and run with the other.  The accumulator, of type `U8`, comes out as `true`. -/
theorem C23_accumUntil_scope_refuted : ∃ (_ : DecidableEq Next) (f : Format) (t : ValueType) (o : BuildOpts)
    (prog : List Decoder) (c : ReadCtxt) (w : Parsed), f.inferType .empty [] [] = .ok t ∧
    compileProgram .empty o 5 f = .ok prog ∧ Decoder.run (env o prog) 20 c = .ok w ∧
    ¬ w.value.1.HasType .lax t := by
  refine ⟨fun _ _ => Classical.propDecidable _,
    .let_ "p" (.tuple [.bool true]) (.accumUntil (.lambda "p" (.intRel .eq (.seqLength (.tupleProj (.var "p") 1)) (.lit .b32 1)))
      (.lambda "q" (.tupleProj (.var "p") 0)) (u8 0) (.u .b8)
      (.byte ByteSet.full)), .tuple [.u .b8, .seq (.u .b8)], opts, _, ⟨[7], 0⟩, _,
    by with_unfolding_all rfl, rfl, rfl, ?_⟩
  change ¬ Value.HasType .lax (.tuple [.bool true, .seq (.strict [.u8 7])]) _
  simp [Value.HasType, Value.HaveTypes, ValueType.u]

/-- Arguments of items are unified with the declared types, and the results are discarded: an item that
returns its argument, declared as `Union{A: U8}`, is called with `B(true)` and typed `Union{A: U8}`. -/
theorem C23_argument_refuted : ∃ (_ : DecidableEq Next) (m : Module) (tys : List ItemTypes) (f : Format)
    (t : ValueType) (o : BuildOpts) (prog : List Decoder) (c : ReadCtxt) (w : Parsed),
    m.Defined tys ∧ f.inferType m tys [] = .ok t ∧
    compileProgram m o 5 f = .ok prog ∧ Decoder.run (env o prog) 20 c = .ok w ∧
    ¬ w.value.1.HasType .lax t := by
  refine ⟨fun _ _ => Classical.propDecidable _, ⟨[⟨["x"], [], .compute (.var "x")⟩]⟩,
    [⟨[.union [("A", .u .b8)]], .union [("A", .u .b8)]⟩], .itemVar 0 [.variant "B" (.bool true)] [],
    .union [("A", .u .b8)], opts, _, ⟨[], 0⟩, _, ?_, by with_unfolding_all rfl, rfl, rfl, ?_⟩
  · exact .define .empty (args := [("x", .union [("A", .u .b8)])]) (views := []) (f := .compute (.var "x"))
      (by with_unfolding_all rfl)
  · change ¬ Value.HasType .lax (.variant "B" (.bool true)) _
    simp [Value.HasType, TMap.get]

end Doodle
