import Verif.Lemmas.ExprSound

/-!
Property C22: well-typed expressions evaluate to values of their type.

`Value.HasType σ v t` (Spec/Typing.lean) says that `v` is a value of type `t`; `Scope.Agrees`
(Spec/TypeSound.lean) that every variable has a value of the type inference assumes for it.  `σ` is how
strictly values are held to their type.  The full statement

  `∀ e Γ t, Γ.WF → e.inferType Γ = .ok t → ∀ s v, s.Agrees σ Γ → e.eval s = .ok v → v.HasType σ t`

is false for the strict reading, and false even for the most lax one (`C22_…_refuted`); what is proved is
the statement under side conditions (`Expr.Kept`, or `Expr.Plain`, which can be read off the expression).
-/

namespace Doodle

/-- Type soundness of evaluation, under the side conditions `Kept`.  Missing from the full property: the
strict reading of projections out of fallback values (`σ.fallbacks ≠ .typed`), and expressions that are
not `Kept`, for which the property is false in general. -/
theorem C22_eval_partial {δ : Type} {σ : Slack} (hf : σ.fallbacks ≠ .typed) (e : Expr) (Γ : TypeScope)
    (t : ValueType) (hΓ : Γ.WF) (hk : e.Kept σ Γ) (ht : e.inferType Γ = .ok t) (s : Scope δ) (v : Value)
    (hs : s.Agrees σ Γ) (hv : e.eval s = .ok v) : v.HasType σ t :=
  (Expr.infer_sound (δ := δ) hf e Γ t hΓ hk ht).2 s v hs hv

/-- Type soundness for plain expressions. -/
theorem C22_plain_partial {δ : Type} {σ : Slack} (hf : σ.fallbacks ≠ .typed) (e : Expr) (Γ : TypeScope)
    (t : ValueType) (hΓ : Γ.WF) (hp : e.Plain σ) (ht : e.inferType Γ = .ok t) (s : Scope δ) (v : Value)
    (hs : s.Agrees σ Γ) (hv : e.eval s = .ok v) : v.HasType σ t :=
  C22_eval_partial hf e Γ t hΓ (Expr.Plain.kept hf e Γ t hΓ hp ht) ht s v hs hv

/-- The types inference returns are well-formed: unions list their alternatives in key order. -/
theorem C22_wf_partial {σ : Slack} (hf : σ.fallbacks ≠ .typed) (e : Expr) (Γ : TypeScope)
    (t : ValueType) (hΓ : Γ.WF) (hk : e.Kept σ Γ) (ht : e.inferType Γ = .ok t) : t.WF :=
  (Expr.infer_sound (δ := Unit) hf e Γ t hΓ hk ht).1

private def u8 (n : Fin 256) : Expr := .lit .b8 n
private def u32 (n : Nat) (h : n < 4294967296 := by decide) : Expr := .lit .b32 ⟨n, h⟩

/-- A plain expression that uses matching, records, arithmetic and a fold:
`LeftFold(λp. p.0 + p.1, 0u8, U8, match x { {A(n)} → [n, n + 1], _ → [] })`. -/
private def sample : Expr :=
  .record
    [("sum", .leftFold (.lambda "p" (.arith .add (.tupleProj (.var "p") 0) (.tupleProj (.var "p") 1)))
      (u8 0) (.u .b8)
      (.match_ (.var "x")
        [(.variant "A" (.binding "n"), .seq [.var "n", .arith .add (.var "n") (u8 1)]),
          (.wildcard, .seq [])])),
     ("len", .seqLength (.seq [.bool true]))]

private def sampleTypes : TypeScope := [("x", .value (.union [("A", .u .b8), ("B", .bool)]))]

private def sampleScope : Scope Unit := .single "x" (.variant "A" (.num (.fixed .b8) ⟨20, by decide⟩)) .empty

example : sample.inferType sampleTypes = .ok (.record [("sum", .u .b8), ("len", .u .b32)]) := by
  with_unfolding_all rfl

example : sample.eval sampleScope =
    .ok (.record [("sum", .num (.fixed .b8) ⟨41, by decide⟩), ("len", .num (.fixed .b32) ⟨1, by decide⟩)]) := by
  with_unfolding_all rfl

example : sample.Plain .nominal := by
  simp [sample, u8, Expr.Plain, Expr.PlainList, Expr.PlainFields, Expr.PlainBranches, ValueType.u,
    ValueType.Rigid]

example : sampleTypes.WF := by
  intro n t h
  simp only [sampleTypes, List.mem_singleton, Prod.mk.injEq, ValueKind.value.injEq] at h
  obtain ⟨_, rfl⟩ := h
  exact .union (.cons (by intro p hp; simp only [List.mem_singleton] at hp; subst hp; decide)
    (.cons (fun _ h => nomatch h) .nil)) (.cons .base (.cons .base .nil))

example : sampleScope.Agrees .nominal sampleTypes := by
  intro n t v h hv
  by_cases hn : n = "x"
  · subst hn
    cases h
    cases hv
    simp [Value.HasType, TMap.get, ValueType.u]
  · simp only [sampleScope, Scope.getValue] at hv
    rw [if_neg (fun h => hn h.symm)] at hv
    cases hv

private theorem agrees_nil {σ : Slack} {s : Scope Unit} : s.Agrees σ [] := by
  intro n t v h _
  cases h

private theorem wf_nil : TypeScope.WF [] := fun _ _ h => nomatch h

/-- `EnumFromTo(0u32, 5u32)[0]` is typed `U32` and evaluates to a `usize`. -/
theorem C22_enum_refuted : ∃ (e : Expr) (t : ValueType) (v : Value), e.inferType [] = .ok t ∧
    e.eval (.empty : Scope Unit) = .ok v ∧ ¬ v.HasType .nominal t := by
  refine ⟨.seqIx (.enumFromTo (u32 0) (u32 5)) (u32 0), .u .b32, .num .usize ⟨0, by decide⟩,
    by with_unfolding_all rfl, ?_, ?_⟩
  · with_unfolding_all rfl
  · simp [Value.HasType, Slack.nominal]

/-- The numeric expression `200u8 + 100u8` is typed `U8` and evaluates to 300. -/
theorem C22_numeric_refuted : ∃ (e : Expr) (t : ValueType) (v : Value), e.inferType [] = .ok t ∧
    e.eval (.empty : Scope Unit) = .ok v ∧ ¬ v.HasType .nominal t := by
  refine ⟨.numeric (.binOp .add none (.const ⟨200, .concrete Num.U8⟩) (.const ⟨100, .concrete Num.U8⟩)),
    .u .b8, .numeric ⟨300, .concrete Num.U8⟩,
    by with_unfolding_all rfl, by with_unfolding_all rfl, ?_⟩
  simp only [Value.HasType, Slack.nominal]
  intro ⟨_, _, h⟩
  revert h
  decide

/-- A component of a fallback value is a placeholder without type: with `x` bound to a fallback value of
type `(U8)`, `x.0` is typed `U8` and evaluates to the placeholder. -/
theorem C22_fallback_refuted : ∃ (e : Expr) (Γ : TypeScope) (t : ValueType) (s : Scope Unit) (v : Value),
    Γ.WF ∧ e.inferType Γ = .ok t ∧ s.Agrees .strict Γ ∧ e.eval s = .ok v ∧ ¬ v.HasType .strict t := by
  refine ⟨.tupleProj (.var "x") 0, [("x", .value (.tuple [.u .b8]))], .u .b8,
    .single "x" (.permitErr (.tuple [.num (.fixed .b8) ⟨1, by decide⟩])) .empty, .permitErrNone,
    ?_, rfl, ?_, rfl, ?_⟩
  · intro n t h
    simp only [List.mem_singleton, Prod.mk.injEq, ValueKind.value.injEq] at h
    obtain ⟨_, rfl⟩ := h
    exact .tuple (.cons .base .nil)
  · intro n t v h hv
    by_cases hn : n = "x"
    · subst hn
      cases h
      cases hv
      simp [Value.HasType, Value.HaveTypes, Slack.strict, ValueType.u]
    · simp only [Scope.getValue] at hv
      rw [if_neg (fun h => hn h.symm)] at hv
      cases hv
  · simp [Value.HasType, Slack.strict]

/-- `FlatMapAccum(λp. (B(true), [p.0]), A(0u8), Union{A: U8}, [1u8, 2u8])`: the accumulator of the body is
unified with the annotation, but the result of the unification is discarded.  The items are typed
`Union{A: U8}`, and the second one is `B(true)`. -/
theorem C22_flatMapAccum_refuted : ∃ (e : Expr) (t : ValueType) (v : Value), e.inferType [] = .ok t ∧
    e.eval (.empty : Scope Unit) = .ok v ∧ ¬ v.HasType .lax t := by
  refine ⟨.flatMapAccum
      (.lambda "p" (.tuple [.variant "B" (.bool true), .seq [.tupleProj (.var "p") 0]]))
      (.variant "A" (u8 0)) (.union [("A", .u .b8)]) (.seq [u8 1, u8 2]),
    .seq (.union [("A", .u .b8)]),
    .seq (.strict [.variant "A" (.num (.fixed .b8) ⟨0, by decide⟩), .variant "B" (.bool true)]),
    by with_unfolding_all rfl, ?_, ?_⟩
  · with_unfolding_all rfl
  · simp [Value.HasType, Value.AllHave, TMap.get]

/-- `LeftFold(λp. (Some(1u8), p.0.0), (None, None), (Option Any, Option Any), [1u8, 2u8])` is typed
`(Option U8, Option Any)` and evaluates to `(Some(1u8), Some(1u8))`. -/
theorem C22_leftFold_refuted : ∃ (e : Expr) (t : ValueType) (v : Value), e.inferType [] = .ok t ∧
    e.eval (.empty : Scope Unit) = .ok v ∧ ¬ v.HasType .lax t := by
  refine ⟨.leftFold
      (.lambda "p" (.tuple [.liftSome (u8 1), .tupleProj (.tupleProj (.var "p") 0) 0]))
      (.tuple [.liftNone, .liftNone]) (.tuple [.option .any, .option .any]) (.seq [u8 1, u8 2]),
    .tuple [.option (.u .b8), .option .any],
    .tuple [.optSome (.num (.fixed .b8) ⟨1, by decide⟩), .optSome (.num (.fixed .b8) ⟨1, by decide⟩)],
    by with_unfolding_all rfl, ?_, ?_⟩
  · with_unfolding_all rfl
  · simp [Value.HasType, Value.HaveTypes, ValueType.u]

/-- `FlatMapList(λp. match SeqLength(p.0) { 0 → [B(1u8)], _ → [A(p.0[0])] }, Bool, [0u8, 0u8])`: the items
are never compared with the annotation.  They are typed `Union{A: Bool, B: U8}`, and the second one is
`A(B(1))`. -/
theorem C22_flatMapList_refuted : ∃ (e : Expr) (t : ValueType) (v : Value), e.inferType [] = .ok t ∧
    e.eval (.empty : Scope Unit) = .ok v ∧ ¬ v.HasType .lax t := by
  refine ⟨.flatMapList
      (.lambda "p" (.match_ (.seqLength (.tupleProj (.var "p") 0))
        [(.lit .b32 ⟨0, by decide⟩, .seq [.variant "B" (u8 1)]),
          (.wildcard, .seq [.variant "A" (.seqIx (.tupleProj (.var "p") 0) (u32 0))])]))
      .bool (.seq [u8 0, u8 0]),
    .seq (.union [("A", .bool), ("B", .u .b8)]),
    .seq (.strict [.variant "B" (.num (.fixed .b8) ⟨1, by decide⟩),
      .variant "A" (.variant "B" (.num (.fixed .b8) ⟨1, by decide⟩))]), ?_, ?_, ?_⟩
  · with_unfolding_all rfl
  · with_unfolding_all rfl
  · simp [Value.HasType, Value.AllHave, TMap.get, ValueType.bool]

/-- Inference panics on a character pattern (`Pattern::build_scope` has no arm for it). -/
theorem C22_char_pattern_panics (c : Char) (Γ : TypeScope) (t : ValueType) :
    (Pattern.char c).buildScope Γ t = .panic := by
  unfold Pattern.buildScope
  rfl

end Doodle
