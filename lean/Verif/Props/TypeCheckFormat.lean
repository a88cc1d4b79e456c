import Verif.Lemmas.Reify
import Verif.Props.TypeCheck
import Verif.Props.Sound

/-!
Property C58: the type that the module type checker finds for a format is the type of everything the format decodes.

`typecheck` (Model/TypeCheckFormat.lean) is the function of the same name of the type checker: it infers, with
meta-variables, what must hold of the types, and then reads off the type of the format.  The full statement

  `typecheck o n m ats k f = .ok (some T) → Decoder.run (compiled program of f) c = .ok w → w.value.1.HasType K T`

is false (`C58_…_refuted`).  It is proved for formats and modules that are `Solid` and `Exact` (Spec/TypeCheckFormat.lean:
no `Fail`, no `Pos`, no dynamically decoded formats; annotations without unions) when the requirements that were
collected can be met at all (`Checker.Sane`).
-/

namespace Doodle
namespace Tc

open Grammar Compiler

/-- **Inference.**  If the type checker accepts a format, then every assignment `σ` of types that meets the
requirements it collected gives the format a type that all its values have, in every scope whose values have the types
of their meta-variables.  (Partial: for formats and items that are `Solid` and `Exact`.) -/
theorem C58_infer_partial (o : Orders) (ho : o.Lists) (n k : Nat) (m : Module) (ats : List (List ValueType)) (K : Slack)
    (hf : K.fallbacks ≠ .typed) (S E : Nat → Prop) (hS : m.SolidOn ats S) (hE : m.ExactOn K E) (f : Format)
    (hs : f.Solid m S) (hx : f.Exact K E) (cx : Ctxt) (s s' : Checker) (r : Nat × Levels) (hg : Good s)
    (h : inferFormat o n m ats k f cx [] s = .ok (r, s')) :
    Good s' ∧ ∀ σ, Solves σ s' → Solves σ s ∧ ∀ (rej : Format → Scope Format → ReadCtxt → Prop) (scope : Scope Format)
      (c c' : ReadCtxt) (v : Value) (d : Nat), cx.scope.Agrees K σ scope → Parses m rej f scope c v c' d →
      v.HasType K (σ r.1) := by
  have hl := fun rej => (yields_top (J := ⟨m, ats, rej, K, S, E⟩) (n := n) ho hf hS hE k f cx [] hs s r s' hg h).2
  refine ⟨(hl fun _ _ _ => False).good, fun σ hσ => ⟨((hl fun _ _ _ => False).solves σ hσ).1, ?_⟩⟩
  intro rej scope c c' v d ha hp
  have := ((hl rej).solves σ hσ).2 (fun l w h => by simp [NMap.get] at h)
  exact this.2 hx scope c v c' d ha hp

/-- **Reading the type.**  The requirements have one solution under which every type that is read off (by `reify`) is
the type of its variable, or the same type with more alternatives in its unions. -/
theorem C58_read (o : Orders) (n : Nat) (st : Checker) (hg : Good st) (hS : st.Sane) :
    ∃ σ, Solves σ st ∧ ∀ (k v : Nat) (T : ValueType), reify o n st k (.var v) = .ok (some T) → ValueType.Le (σ v) T :=
  ⟨solution st hS.finite, solution_solves hS, fun k v T h => (reify_sound hg hS k (.var v) T trivial h).1⟩

/-- **The requirements can be met exactly if they are sane.** -/
theorem C58_solvable (st : Checker) (hg : Good st) : (∃ σ, Solves σ st) ↔ st.Sane :=
  ⟨fun ⟨_, h⟩ => sane_of_solves hg h, fun h => ⟨_, solution_solves h⟩⟩

/-- **The occurs check.**  If it succeeds for every class of variables, no type is infinite. -/
theorem C58_occurs (o : Orders) (ho : o.Lists) (st : Checker) (hg : Good st)
    (h : ∀ v, Aliases.root st.aliases v = v → v < st.constraints.length → ∃ n, occurs o n v st = .ok ((), st)) :
    WellFounded st.Inside :=
  finite_of_occurs ho hg h

/-- **Type checking, against derivations.**  If `typecheck` finds the type `T` for a format, every value the format
derives has type `T`.  (Partial: for formats and items that are `Solid` and `Exact`, when the requirements are sane.) -/
theorem C58_typecheck_partial (o : Orders) (ho : o.Lists) (n k : Nat) (m : Module) (ats : List (List ValueType))
    (K : Slack) (hf : K.fallbacks ≠ .typed) (S E : Nat → Prop) (hS : m.SolidOn ats S) (hE : m.ExactOn K E) (f : Format)
    (hs : f.Solid m S) (hx : f.Exact K E)
    (hsane : ∀ r st, inferFormat o n m ats k f Ctxt.empty [] Checker.new = .ok (r, st) → st.Sane)
    (T : ValueType) (h : typecheck o n m ats k f = .ok (some T)) (rej : Format → Scope Format → ReadCtxt → Prop)
    (c c' : ReadCtxt) (v : Value) (d : Nat) (hp : Parses m rej f .empty c v c' d) : v.HasType K T := by
  unfold typecheck at h
  cases hi : inferFormat o n m ats k f Ctxt.empty [] Checker.new with
  | err _ => rw [hi] at h; cases h
  | panic => rw [hi] at h; cases h
  | fuel => rw [hi] at h; cases h
  | ok rs =>
    obtain ⟨r, st⟩ := rs
    rw [hi] at h
    dsimp only at h
    obtain ⟨hg, hsnd⟩ := C58_infer_partial o ho n k m ats K hf S E hS hE f hs hx Ctxt.empty _ st r good_new hi
    obtain ⟨σ, hσ, hread⟩ := C58_read o n st hg (hsane r st hi)
    cases hr : reify o n st n (.var r.1) with
    | err _ => rw [hr] at h; cases h
    | panic => rw [hr] at h; cases h
    | fuel => rw [hr] at h; cases h
    | ok T' =>
      rw [hr] at h
      change (if st.constraints.length = st.aliases.length then Outcome.ok T' else .panic) = _ at h
      split at h
      · cases h
        exact (((hsnd σ hσ).2 rej .empty c c' v d
          (fun _ _ _ h => by simp [Ctxt.empty, UScope.get, TMap.get] at h) hp)).mono (hread n r.1 T hr)
      · cases h

/-- **Type checking, against the decoder.**  If `typecheck` finds the type `T` for a format, whatever its compiled
program returns has type `T`.  (Partial: as above.) -/
theorem C58_decode_partial [DecidableEq Next] (o : Orders) (ho : o.Lists) (n k : Nat) (m : Module)
    (ats : List (List ValueType)) (K : Slack) (hf : K.fallbacks ≠ .typed) (S E : Nat → Prop) (hS : m.SolidOn ats S)
    (hE : m.ExactOn K E) (f : Format) (hs : f.Solid m S) (hx : f.Exact K E)
    (hsane : ∀ r st, inferFormat o n m ats k f Ctxt.empty [] Checker.new = .ok (r, st) → st.Sane)
    (T : ValueType) (h : typecheck o n m ats k f = .ok (some T)) (opts : BuildOpts) (cfuel : Nat) (prog : List Decoder)
    (hp : compileProgram m opts cfuel f = .ok prog) (fuel : Nat) (c : ReadCtxt) (w : Parsed)
    (hr : Decoder.run (env opts prog) fuel c = .ok w) : w.value.1.HasType K T := by
  obtain ⟨M, hM⟩ := C11_sound_partial m opts cfuel f prog hp fuel c w hr
  exact C58_typecheck_partial o ho n k m ats K hf S E hS hE f hs hx hsane T h _ _ _ _ _ hM

/-- **Type checking of a module.**  If `infer_module` accepts a module with a top format, every assignment of types that
meets the requirements it collected gives the top format a type that all its values have, and every item, used or
not, a type that all its values have in every call with arguments of the declared types.  (Partial: as above.) -/
theorem C58_module_partial (o : Orders) (ho : o.Lists) (n k : Nat) (m : Module) (ats : List (List ValueType)) (K : Slack)
    (hf : K.fallbacks ≠ .typed) (S E : Nat → Prop) (hS : m.SolidOn ats S) (hE : m.ExactOn K E) (top : Format)
    (hs : top.Solid m S) (hx : top.Exact K E) (hall : ∀ l, l < m.items.length → S l) (s' : Checker) (r : Nat × Levels)
    (h : inferModule o n m ats k top Checker.new = .ok (r, s')) (σ : Assignment) (hσ : Solves σ s')
    (rej : Format → Scope Format → ReadCtxt → Prop) :
    (∀ c c' v d, Parses m rej top .empty c v c' d → v.HasType K (σ r.1)) ∧
    ∀ l it ts, m.items[l]? = some it → ats[l]? = some ts → E l → ∃ T : ValueType, ∀ es vs c v c' d,
      Entries K es (params it ts) → AllViews vs → Parses m rej it.format (.multi (es ++ vs) .empty) c v c' d →
      v.HasType K T := by
  unfold inferModule at h
  obtain ⟨a, s1, h1, h⟩ := TcM.bind_eq_ok.1 h
  obtain ⟨lv, s2, h2, h⟩ := TcM.bind_eq_ok.1 h
  obtain ⟨rfl, rfl⟩ := TcM.pure_eq_ok.1 h
  have l1 := (yields_top (J := ⟨m, ats, rej, K, S, E⟩) (n := n) ho hf hS hE k top Ctxt.empty [] hs _ a s1 good_new h1).2
  have l2 := (yields_rest (J := ⟨m, ats, rej, K, S, E⟩) (n := n) ho hf hS hE k (List.range m.items.length) a.2
    (fun l hl => hall l (List.mem_range.1 hl)) s1 lv _ l1.good h2).2
  obtain ⟨g1, g2⟩ := l2.solves σ hσ
  obtain ⟨g3, g4⟩ := (l1.solves σ g1).2 (fun l w h => by simp [NMap.get] at h)
  refine ⟨fun c c' v d hp => g4 hx .empty c v c' d (fun _ _ _ h => by simp [Ctxt.empty, UScope.get, TMap.get] at h) hp, ?_⟩
  intro l it ts hit hts he
  obtain ⟨w, hw⟩ := (g2 g3).2 l (List.mem_range.2 (List.getElem?_eq_some_iff.1 hit).1)
  exact ⟨σ w, fun es vs c v c' d h1 h2 h3 => hw he it ts es vs c v c' d hit hts h1 h2 h3⟩

/-! ### the hypotheses are met -/

/-- the state after a format was checked -/
def formatState (m : Module) (ats : List (List ValueType)) (f : Format) : Checker :=
  match inferFormat demoOrders 20 m ats 5 f Ctxt.empty [] Checker.new with
  | .ok (_, s) => s
  | _ => Checker.new

/-- the format is found to have the type -/
def formatTyped (m : Module) (ats : List (List ValueType)) (f : Format) (T : ValueType) : Bool :=
  match typecheck demoOrders 20 m ats 5 f with
  | .ok (some U) => U.same T
  | _ => false

theorem formatTyped_ok {m : Module} {ats : List (List ValueType)} {f : Format} {T : ValueType}
    (h : formatTyped m ats f T = true) : typecheck demoOrders 20 m ats 5 f = .ok (some T) := by
  unfold formatTyped at h
  cases hr : typecheck demoOrders 20 m ats 5 f with
  | err e => rw [hr] at h; cases h
  | panic => rw [hr] at h; cases h
  | fuel => rw [hr] at h; cases h
  | ok p =>
    rw [hr] at h
    cases p with
    | none => cases h
    | some U => rw [ValueType.eq_of_same _ _ h]

theorem formatState_ok {m : Module} {ats : List (List ValueType)} {f : Format} {r : Nat × Levels} {st : Checker}
    (h : inferFormat demoOrders 20 m ats 5 f Ctxt.empty [] Checker.new = .ok (r, st)) : st = formatState m ats f := by
  unfold formatState
  rw [h]

attribute [local irreducible] formatState formatTyped

private def any8 : Format := .byte ByteSet.full
private def u8t : ValueType := .base (.num .b8)

/-- an item with a parameter `n`: a byte and `n` bytes -/
private def sampleModule : Module := ⟨[⟨["n"], [], .tuple [any8, .repeatCount (.var "n") any8]⟩]⟩

/-- `Union { A: let x = [0 1 2] in item(x), B: (9, [true, false]) }` -/
private def sampleFormat : Format :=
  .union [.variant "A" (.letFormat (.byte (ByteSet.fromIter [0, 1, 2])) "x" (.itemVar 0 [.var "x"] [])),
    .variant "B" (.tuple [.byte (ByteSet.fromIter [9]), .compute (.seq [.bool true, .bool false])])]

private def sampleType : ValueType :=
  .union [("A", .tuple [u8t, .seq u8t]), ("B", .tuple [u8t, .seq (.base .bool)])]

example : typecheck demoOrders 20 sampleModule [[u8t]] 5 sampleFormat = .ok (some sampleType) :=
  formatTyped_ok (by decide +kernel)

private theorem sample_ok : sampleFormat.Solid sampleModule (fun l => l = 0) ∧
    sampleFormat.Exact .basic (fun l => l = 0) ∧ sampleModule.SolidOn [[u8t]] (fun l => l = 0) ∧
    sampleModule.ExactOn .basic (fun l => l = 0) := by
  refine ⟨?_, ?_, ?_, ?_⟩
  · simp only [sampleFormat, Format.Solid, Format.SolidList, Expr.Solid, Expr.SolidList, ViewExpr.SolidList, and_true, true_and]
    refine ⟨⟨by decide +kernel, ?_⟩, by decide +kernel⟩
    intro it h
    cases h
    rfl
  · simp [sampleFormat, Format.Exact, Format.ExactList, Expr.Exact, Expr.ExactList]
  · intro l it hl h
    subst hl
    cases h
    refine ⟨?_, [u8t], rfl, rfl, ?_⟩
    · simp only [Format.Solid, Format.SolidList, Expr.Solid, any8]
      decide +kernel
    · simp [ValueType.RigidList, ValueType.Rigid, u8t]
  · intro l it hl h
    subst hl
    cases h
    simp [Format.Exact, Format.ExactList, any8]

private theorem sample_sane : ∀ r st,
    inferFormat demoOrders 20 sampleModule [[u8t]] 5 sampleFormat Ctxt.empty [] Checker.new = .ok (r, st) → st.Sane := by
  intro r st h
  have hg := (C58_infer_partial demoOrders demoOrders_lists 20 5 sampleModule [[u8t]] .basic (by decide) _ _
    sample_ok.2.2.1 sample_ok.2.2.2 sampleFormat sample_ok.1 sample_ok.2.1 Ctxt.empty _ st r good_new h).1
  rw [formatState_ok h] at hg ⊢
  exact sane_of_solves hg (solves_of_solvesB (ts := candidate (formatState sampleModule [[u8t]] sampleFormat)) (by decide +kernel))

private def opts : BuildOpts := ⟨fun _ l => l, 20⟩

/-- all hypotheses of `C58_decode_partial` are met by the sample, and the program is run on `2 7 8 9` -/
example : ∃ (_ : DecidableEq Next) (prog : List Decoder) (w : Parsed), compileProgram sampleModule opts 5 sampleFormat = .ok prog ∧
    Decoder.run (env opts prog) 20 ⟨[2, 7, 8, 9], 0⟩ = .ok w ∧ w.value.1.HasType .basic sampleType ∧ w.value.2.offset = 4 := by
  letI : DecidableEq Next := fun _ _ => Classical.propDecidable _
  refine ⟨this, _, _, rfl, rfl, ?_, rfl⟩
  exact C58_decode_partial demoOrders demoOrders_lists 20 5 sampleModule [[u8t]] .basic (by decide) _ _
    sample_ok.2.2.1 sample_ok.2.2.2 sampleFormat sample_ok.1 sample_ok.2.1 sample_sane _ (formatTyped_ok (by decide +kernel))
    opts 5 _ rfl 20 ⟨[2, 7, 8, 9], 0⟩ _ rfl

/-- the module of the sample is accepted with the sample, and with a format that uses no item the module of an item
without parameters is -/
example : (∃ r, inferModule demoOrders 20 sampleModule [[u8t]] 5 sampleFormat Checker.new = .ok r) ∧
    ∃ r, inferModule demoOrders 20 ⟨[⟨[], [], .variant "A" any8⟩]⟩ [[]] 5 any8 Checker.new = .ok r := by
  have key : ∀ x : Outcome Unit ((Nat × Levels) × Checker), (match x with | .ok _ => true | _ => false) = true →
      ∃ r, x = .ok r := by
    intro x h
    cases x with
    | ok r => exact ⟨r, rfl⟩
    | _ => cases h
  exact ⟨key _ (by decide +kernel), key _ (by decide +kernel)⟩

/-- the occurs check succeeds for every class of the sample (of which there are 17 variables) -/
example : ∀ v, Aliases.root (formatState sampleModule [[u8t]] sampleFormat).aliases v = v →
    v < (formatState sampleModule [[u8t]] sampleFormat).constraints.length →
    ∃ n, occurs demoOrders n v (formatState sampleModule [[u8t]] sampleFormat) =
      .ok ((), formatState sampleModule [[u8t]] sampleFormat) := by
  generalize hst : formatState sampleModule [[u8t]] sampleFormat = st
  have h : (List.range st.constraints.length).all (fun v => match occurs demoOrders 20 v st with | .ok _ => true | _ => false) = true := by
    rw [← hst]; decide +kernel
  intro v _ hv
  have := List.all_eq_true.mp h v (List.mem_range.mpr hv)
  refine ⟨20, ?_⟩
  cases ho : occurs demoOrders 20 v st with
  | ok r =>
    unfold occurs TcM.read at ho
    split at ho <;> cases ho
    rfl
  | err _ => rw [ho] at this; cases this
  | panic => rw [ho] at this; cases this
  | fuel => rw [ho] at this; cases this

/-! ### what is not true -/

private def failFormat : Format := .match_ (.bool true) [(.bool false, .fail), (.wildcard, .variant "A" any8)]

/-- `Fail` has the type `Empty`, which is matched with every type and stays: `match true { false → Fail, _ → A: byte }`
has the type `Empty`, and decodes to `A(7)`. -/
theorem C58_fail_refuted : ∃ (_ : DecidableEq Next) (f : Format) (T : ValueType) (o : BuildOpts) (prog : List Decoder)
    (c : ReadCtxt) (w : Parsed), typecheck demoOrders 20 .empty [] 5 f = .ok (some T) ∧
    compileProgram .empty o 5 f = .ok prog ∧ Decoder.run (env o prog) 20 c = .ok w ∧ ¬ w.value.1.HasType .lax T := by
  refine ⟨fun _ _ => Classical.propDecidable _, failFormat, .empty, opts, _, ⟨[7], 0⟩, _,
    formatTyped_ok (by decide +kernel), rfl, rfl, ?_⟩
  change ¬ Value.HasType .lax (.branch 1 (.variant "A" (.u8 7))) _
  simp [Value.HasType]

private def posFormat : Format := .letFormat .pos "x" (.compute (.seq [.var "x", .lit .b32 1]))

/-- `Pos` may have any unsigned type but decodes to a `U64`: `let x = Pos in [x, 1u32]` has type `Seq U32`, and the first
element of its value is a `U64`. -/
theorem C58_pos_refuted : ∃ (_ : DecidableEq Next) (f : Format) (T : ValueType) (o : BuildOpts) (prog : List Decoder)
    (c : ReadCtxt) (w : Parsed), typecheck demoOrders 20 .empty [] 5 f = .ok (some T) ∧
    compileProgram .empty o 5 f = .ok prog ∧ Decoder.run (env o prog) 20 c = .ok w ∧ ¬ w.value.1.HasType .lax T := by
  refine ⟨fun _ _ => Classical.propDecidable _, posFormat, .seq (.base (.num .b32)), opts, _, ⟨[], 0⟩, _,
    formatTyped_ok (by decide +kernel), rfl, rfl, ?_⟩
  change ¬ Value.HasType .lax (.seq (.strict [.num (.fixed .b64) 0, .num (.fixed .b32) 1])) _
  simp [Value.HasType, Value.AllHave]

private def ident : Module := ⟨[⟨["x"], [], .compute (.var "x")⟩]⟩
private def onlyA : ValueType := .union [("A", u8t)]
private def calls : Format := .tuple [.itemVar 0 [.variant "A" (.lit .b8 1)] [], .itemVar 0 [.variant "B" (.bool true)] []]

/-- The type of an item is inferred at its first call.  A later call with another alternative of a union is accepted,
and keeps the type of the first: with `item(x) = x`, `(item(A 1), item(B true))` has type `({A: U8}, {A: U8})`. -/
theorem C58_argument_refuted : ∃ (m : Module) (ats : List (List ValueType)) (f : Format) (T : ValueType) (c c' : ReadCtxt)
    (v : Value), typecheck demoOrders 20 m ats 5 f = .ok (some T) ∧
    Parses m (fun _ _ _ => False) f .empty c v c' 0 ∧ ¬ v.HasType .lax T := by
  refine ⟨ident, [[onlyA]], calls, .tuple [onlyA, onlyA], ⟨[], 0⟩, ⟨[], 0⟩,
    .tuple [.variant "A" (.num (.fixed .b8) 1), .variant "B" (.bool true)], formatTyped_ok (by decide +kernel), ?_, ?_⟩
  · have one : ∀ e v, Denotes e (.empty : Scope Format) v →
        Denotes (.var "x") (.multi [("x", .value v)] (.empty : Scope Format)) v → Parses ident (fun _ _ _ => False) (.itemVar 0 [e] []) .empty
        ⟨[], 0⟩ v ⟨[], 0⟩ 0 := fun e v h h' =>
      .itemVar (it := ⟨["x"], [], .compute (.var "x")⟩) rfl (.cons h .nil) .nil (.compute h')
    exact .tuple (.fcons (one _ _ (by with_unfolding_all rfl) (by with_unfolding_all rfl)) (.fcons (one _ _ (by with_unfolding_all rfl) (by with_unfolding_all rfl)) .fnil))
  · simp [Value.HasType, Value.HaveTypes, onlyA, TMap.get]

private def byteThenVariant : Format := .union [any8, .variant "A" any8]
private def variantThenByte : Format := .union [.variant "A" any8, any8]
private def failThenVariant : Format := .union [.fail, .variant "A" any8]
private def projected : Format := .map any8 (.lambda "x" (.tupleProj (.var "x") 0))

/-- the type checker ends in the given way -/
private def ends {α : Type} (p : Bool) : Outcome Unit α → Bool
  | .panic => p
  | .err _ => !p
  | _ => false

private theorem ends_panic {α : Type} {x : Outcome Unit α} (h : ends true x = true) : x = .panic := by
  cases x <;> first | rfl | cases h

private theorem ends_err {α : Type} {x : Outcome Unit α} (h : ends false x = true) : x = .err () := by
  cases x <;> first | rfl | cases h

/-- **Formats that panic in the type checker.**  Whether a union of a byte and a variant is reported or panics depends
on their order; a projection out of a byte panics; so does a union that starts with `Fail`, although it is a correct
format. -/
theorem C58_panic_refuted :
    typecheck demoOrders 20 .empty [] 5 (.union [.variant "A" (.byte ByteSet.full), .byte ByteSet.full]) = .err () ∧
    typecheck demoOrders 20 .empty [] 5 (.union [.byte ByteSet.full, .variant "A" (.byte ByteSet.full)]) = .panic ∧
    typecheck demoOrders 20 .empty [] 5 (.map (.byte ByteSet.full) (.lambda "x" (.tupleProj (.var "x") 0))) = .panic ∧
    typecheck demoOrders 20 .empty [] 5 (.union [.fail, .variant "A" (.byte ByteSet.full)]) = .panic :=
  ⟨ends_err (x := typecheck demoOrders 20 .empty [] 5 variantThenByte) (by decide +kernel),
    ends_panic (x := typecheck demoOrders 20 .empty [] 5 byteThenVariant) (by decide +kernel),
    ends_panic (x := typecheck demoOrders 20 .empty [] 5 projected) (by decide +kernel),
    ends_panic (x := typecheck demoOrders 20 .empty [] 5 failThenVariant) (by decide +kernel)⟩

/-- **Modules that panic in the type checker.**  An item with a parameter that the top format does not use is inferred
without its parameter in scope: the module with the item `item(x) = x` cannot be checked with any top format that does
not call it. -/
theorem C58_unused_item_refuted :
    inferModule demoOrders 20 ⟨[⟨["x"], [], .compute (.var "x")⟩]⟩ [[.base (.num .b8)]] 5 (.byte ByteSet.full) Checker.new = .panic ∧
    ∃ r, inferModule demoOrders 20 ⟨[⟨["x"], [], .compute (.var "x")⟩]⟩ [[.base (.num .b8)]] 5 (.itemVar 0 [.lit .b8 1] [])
      Checker.new = .ok r := by
  refine ⟨ends_panic (x := inferModule demoOrders 20 ident [[u8t]] 5 any8 Checker.new) (by decide +kernel), ?_⟩
  have h : (match inferModule demoOrders 20 ident [[u8t]] 5 (.itemVar 0 [.lit .b8 1] []) Checker.new with
    | .ok _ => true | _ => false) = true := by decide +kernel
  show ∃ r, inferModule demoOrders 20 ident [[u8t]] 5 (.itemVar 0 [.lit .b8 1] []) Checker.new = .ok r
  cases hr : inferModule demoOrders 20 ident [[u8t]] 5 (.itemVar 0 [.lit .b8 1] []) Checker.new with
  | ok r => exact ⟨r, rfl⟩
  | err _ => rw [hr] at h; cases h
  | panic => rw [hr] at h; cases h
  | fuel => rw [hr] at h; cases h

end Tc
end Doodle
