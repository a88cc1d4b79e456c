import Verif.Lemmas.ExprProgress

/-!
C48: well-typed expressions do not get stuck.  Full claim: if inference gives an expression a type, then
evaluating it in a scope that binds every typed name to a value of its type returns a value, or fails
for a run-time fault (`Spec/Progress.lean`), never because an operand is of the wrong kind.

Proved for values without `Numeric`, `usize`, range and fallback values (`Slack.basic`) and for expressions
that meet the side conditions of type soundness; refuted for the others.
-/

namespace Doodle

/-- Evaluation of a typed expression returns a value of the type, or hits a fault. -/
theorem C48_progress_partial {δ : Type} (e : Expr) (Γ : TypeScope) (t : ValueType) (hΓ : Γ.WF)
    (hk : e.Kept .basic Γ) (ht : e.inferType Γ = .ok t) (s : Scope δ) (ha : s.Agrees .basic Γ)
    (hc : s.Covers Γ) : (∃ v, e.eval s = .ok v ∧ v.HasType .basic t) ∨ Faults s e :=
  Expr.prog_of (Expr.progress e Γ t hΓ hk ht s ha hc)
    (Expr.infer_sound Slack.basic_fallbacks e Γ t hΓ hk ht) ha

/-- The same for expressions whose side conditions can be read off the expression. -/
theorem C48_plain_partial {δ : Type} (e : Expr) (Γ : TypeScope) (t : ValueType) (hΓ : Γ.WF)
    (hp : e.Plain .basic) (ht : e.inferType Γ = .ok t) (s : Scope δ) (ha : s.Agrees .basic Γ)
    (hc : s.Covers Γ) : (∃ v, e.eval s = .ok v ∧ v.HasType .basic t) ∨ Faults s e :=
  C48_progress_partial e Γ t hΓ (Expr.Plain.kept Slack.basic_fallbacks e Γ t hΓ hp ht) ht s ha hc

/-- A fault really makes evaluation fail, typed or not. -/
theorem C48_faults_panic {δ : Type} (e : Expr) (s : Scope δ) (h : Faults s e) : e.eval s = .panic :=
  h.panics

/-- So evaluation of a typed expression fails exactly when there is a fault. -/
theorem C48_panics_iff_partial {δ : Type} (e : Expr) (Γ : TypeScope) (t : ValueType) (hΓ : Γ.WF)
    (hk : e.Kept .basic Γ) (ht : e.inferType Γ = .ok t) (s : Scope δ) (ha : s.Agrees .basic Γ)
    (hc : s.Covers Γ) : e.eval s = .panic ↔ Faults s e := by
  constructor
  · intro hp
    rcases C48_progress_partial e Γ t hΓ hk ht s ha hc with ⟨v, hv, _⟩ | hf
    · rw [hv] at hp; cases hp
    · exact hf
  · exact Faults.panics

/-! ### The hypotheses are met -/

private def u8 (n : Fin 256) : Expr := .lit .b8 n

/-- `LeftFold(λp. p.0 + p.1, 0u8, U8, match x { {A(n)} → [n, n + 1], {B(_)} → [] })` -/
private def sample : Expr :=
  .leftFold (.lambda "p" (.arith .add (.tupleProj (.var "p") 0) (.tupleProj (.var "p") 1)))
    (u8 0) (.u .b8)
    (.match_ (.var "x")
      [(.variant "A" (.binding "n"), .seq [.var "n", .arith .add (.var "n") (u8 1)]),
        (.variant "B" .wildcard, .seq [])])

private def sampleTypes : TypeScope := [("x", .value (.union [("A", .u .b8), ("B", .bool)]))]

private def sampleScope (n : Fin 256) : Scope Unit := .single "x" (.variant "A" (.num (.fixed .b8) n)) .empty

example : sample.inferType sampleTypes = .ok (.u .b8) := by with_unfolding_all rfl

example : sample.Plain .basic := by
  simp [sample, u8, Expr.Plain, Expr.PlainList, Expr.PlainBranches, ValueType.u, ValueType.Rigid]

example : sampleTypes.WF := by
  intro n t h
  simp only [sampleTypes, List.mem_singleton, Prod.mk.injEq, ValueKind.value.injEq] at h
  obtain ⟨_, rfl⟩ := h
  exact .union (.cons (by intro p hp; simp only [List.mem_singleton] at hp; subst hp; decide)
    (.cons (fun _ h => nomatch h) .nil)) (.cons .base (.cons .base .nil))

example (k : Fin 256) : (sampleScope k).Agrees .basic sampleTypes ∧ (sampleScope k).Covers sampleTypes := by
  constructor
  · intro n t v h hv
    by_cases hn : n = "x"
    · subst hn
      cases h
      cases hv
      simp [Value.HasType, TMap.get, ValueType.u]
    · simp only [sampleScope, Scope.getValue] at hv
      rw [if_neg (fun h => hn h.symm)] at hv
      cases hv
  · intro n t h
    by_cases hn : n = "x"
    · subst hn; exact ⟨_, rfl⟩
    · simp only [sampleTypes, TypeScope.get] at h
      rw [if_neg (fun h => hn h.symm)] at h
      cases h

example : sample.eval (sampleScope 20) = .ok (.num (.fixed .b8) ⟨41, by decide⟩) := by with_unfolding_all rfl

/-- 200 + 201 does not fit: a fault in the second step of the fold. -/
example : Faults (sampleScope 200) sample :=
  .leftFold (q := .strict [.num (.fixed .b8) (200 : Fin 256), .num (.fixed .b8) (201 : Fin 256)])
    (pre := [.num (.fixed .b8) (200 : Fin 256)]) (v := .num (.fixed .b8) (201 : Fin 256)) (post := [])
    (a := .num (.fixed .b8) (0 : Fin 256)) (b := .num (.fixed .b8) (200 : Fin 256))
    ⟨_, by with_unfolding_all rfl, rfl⟩ rfl ⟨_, by with_unfolding_all rfl, rfl⟩
    (.cons ⟨_, by with_unfolding_all rfl, rfl⟩ .nil)
    (.arith (w := .b8) (a := 200) (b := 201) ⟨by decide, _, by with_unfolding_all rfl, rfl⟩
      ⟨by decide, _, by with_unfolding_all rfl, rfl⟩ (by show 2 ^ 8 ≤ 200 + 201; decide))

/-! ### Typed expressions that get stuck -/

/-- With `x : U8` bound to a `Numeric` value of representation `U8`, `x + 1u8` is typed `U8` and panics,
although the sum fits: the interpreter has no arithmetic between `Numeric` and machine values. -/
theorem C48_numeric_refuted : ∃ (e : Expr) (Γ : TypeScope) (t : ValueType) (s : Scope Unit),
    Γ.WF ∧ e.inferType Γ = .ok t ∧ s.Agrees .nominal Γ ∧ s.Covers Γ ∧ e.eval s = .panic ∧ ¬ Faults s e := by
  refine ⟨.arith .add (.var "x") (u8 1), [("x", .value (.u .b8))], .u .b8,
    .single "x" (.numeric ⟨5, .concrete Num.U8⟩) .empty, ?_, by with_unfolding_all rfl, ?_, ?_,
    by with_unfolding_all rfl, ?_⟩
  · intro n t h
    simp only [List.mem_singleton, Prod.mk.injEq, ValueKind.value.injEq] at h
    obtain ⟨_, rfl⟩ := h
    exact .base
  · intro n t v h hv
    by_cases hn : n = "x"
    · subst hn
      cases h
      cases hv
      simp only [Value.HasType]
      exact ⟨rfl, rfl, .inr (by decide)⟩
    · simp only [Scope.getValue] at hv
      rw [if_neg (fun h => hn h.symm)] at hv
      cases hv
  · intro n t h
    by_cases hn : n = "x"
    · subst hn; exact ⟨_, rfl⟩
    · simp only [TypeScope.get] at h
      rw [if_neg (fun h => hn h.symm)] at h
      cases h
  · intro hf
    cases hf with
    | operand hm hf =>
      have hp := hf.panics
      simp only [Expr.operands, List.mem_cons, List.not_mem_nil, or_false] at hm
      rcases hm with rfl | rfl
      · have : Expr.eval (.var "x") (.single "x" (.numeric ⟨5, .concrete Num.U8⟩) .empty : Scope Unit)
            = .ok (.numeric ⟨5, .concrete Num.U8⟩) := by with_unfolding_all rfl
        rw [this] at hp; cases hp
      · simp only [u8, Expr.eval] at hp; cases hp
    | arith hx _ _ =>
      obtain ⟨_, v, hv, hc⟩ := hx
      have : Expr.eval (.var "x") (.single "x" (.numeric ⟨5, .concrete Num.U8⟩) .empty : Scope Unit)
          = .ok (.numeric ⟨5, .concrete Num.U8⟩) := by with_unfolding_all rfl
      rw [this] at hv
      cases hv
      simp only [Value.coerceMapped, reduceCtorEq] at hc

private theorem range_eval : (Expr.enumFromTo (u8 0) (u8 3)).eval (.empty : Scope Unit) =
    .ok (.enumFromTo ⟨0, by decide⟩ ⟨3, by decide⟩) := by with_unfolding_all rfl

/-- `LeftFold(λp. p.0, true, Bool, EnumFromTo(0u8, 3u8))` is typed `Bool` and panics: folds do not accept
ranges. -/
theorem C48_range_refuted : ∃ (e : Expr) (t : ValueType), e.inferType [] = .ok t ∧
    e.eval (.empty : Scope Unit) = .panic ∧ ¬ Faults (.empty : Scope Unit) e := by
  refine ⟨.leftFold (.lambda "p" (.tupleProj (.var "p") 0)) (.bool true) .bool (.enumFromTo (u8 0) (u8 3)),
    .bool, by with_unfolding_all rfl, by with_unfolding_all rfl, ?_⟩
  intro hf
  cases hf with
  | operand hm hf =>
    have hp := hf.panics
    simp only [Expr.operands, List.mem_cons, List.not_mem_nil, or_false] at hm
    rcases hm with rfl | rfl
    · simp only [Expr.eval, reduceCtorEq] at hp
    · rw [range_eval] at hp; cases hp
  | leftFold hx _ _ _ _ =>
    obtain ⟨v, hv, hc⟩ := hx
    rw [range_eval] at hv
    cases hv
    simp only [Value.coerceMapped, reduceCtorEq] at hc

/-- A word built from bytes that are results of mapped formats: with `x : (U8, U8)` bound to a pair of
wrapped bytes, `U16Be(x)` is typed `U16` and panics. -/
theorem C48_wrapped_panics : ∃ (e : Expr) (Γ : TypeScope) (t : ValueType) (s : Scope Unit),
    e.inferType Γ = .ok t ∧ s.Agrees .basic Γ ∧ e.eval s = .panic := by
  refine ⟨.fromBytes .b16 true (.var "x"), [("x", .value (.tuple [.u .b8, .u .b8]))], .u .b16,
    .single "x" (.tuple [.branch 0 (.num (.fixed .b8) ⟨1, by decide⟩), .num (.fixed .b8) ⟨2, by decide⟩]) .empty,
    by with_unfolding_all rfl, ?_, by with_unfolding_all rfl⟩
  intro n t v h hv
  by_cases hn : n = "x"
  · subst hn
    cases h
    cases hv
    simp [Value.HasType, Value.HaveTypes, ValueType.u]
  · simp only [Scope.getValue] at hv
    rw [if_neg (fun h => hn h.symm)] at hv
    cases hv

end Doodle
