import Verif.Lemmas.TypeCheckSound
import Verif.Lemmas.SolvesCheck
import Verif.Props.Unify

/-!
C57: the values of an expression have the type that the type checker finds for it.

The type checker (src/typecheck.rs) gives every expression a meta-variable and leaves a state whose solutions
(`Solves`, Verif/Spec/Unify.lean) are the types it may still choose.  The theorems say that, whichever solution is
taken, every value of the expression has the type of its meta-variable.  They hold from any state of the checker, so
also when the expression is part of a larger format, with any names in scope.

The full statement, for every expression the checker accepts, is false: the last theorems give the cases that
`Expr.Solid` and `Expr.Exact` (Verif/Spec/TypeCheck.lean) exclude.
-/

namespace Doodle
namespace Tc

open Num (MachineRep BitWidth)

/-- **Expressions.**  If the type checker accepts an expression, and `σ` solves the state it is left in — or any
later state of the run, which by C56 has no further solutions — then every value of the expression, in every scope
whose values have the types of their meta-variables, has the type that `σ` gives to the expression.  (Partial: for
expressions in `Solid` and `Exact`.) -/
theorem C57_expr_partial (o : Orders) (ho : o.Lists) (n : Nat) (δ : Type) (K : Slack) (hf : K.fallbacks ≠ .typed)
    (e : Expr) (sc : UScope) (s s' : Checker) (v : Nat) (hg : Good s) (hs : e.Solid) (hx : e.Exact K)
    (h : inferExpr o n e sc s = .ok (v, s')) :
    Good s' ∧ ∀ σ, Solves σ s' → Solves σ s ∧ ∀ (scope : Scope δ) (x : Value), sc.Agrees K σ scope →
      e.eval scope = .ok x → x.HasType K (σ v) := by
  have hl := (yields_expr (δ := δ) (n := n) ho hf e sc hs s v s' hg h).2
  refine ⟨hl.good, fun σ hσ => ⟨(hl.solves σ hσ).1, ?_⟩⟩
  exact (hl.solves σ hσ).2 hx

/-- **Closed expressions, from the start.**  The same for an expression without free names and a new type checker. -/
theorem C57_closed_partial (o : Orders) (ho : o.Lists) (n : Nat) (K : Slack) (hf : K.fallbacks ≠ .typed) (e : Expr)
    (s' : Checker) (v : Nat) (hs : e.Solid) (hx : e.Exact K) (h : inferExpr o n e [] Checker.new = .ok (v, s'))
    (σ : Assignment) (hσ : Solves σ s') (x : Value) (hv : e.eval (δ := Unit) .empty = .ok x) : x.HasType K (σ v) :=
  ((C57_expr_partial o ho n Unit K hf e [] _ s' v good_new hs hx h).2 σ hσ).2 .empty x
    (fun _ _ _ h => by simp [UScope.get, TMap.get] at h) hv

/-- **Functions.**  The function of a fold, a map or a record format takes arguments of its argument type to results
of its result type. -/
theorem C57_lambda_partial (o : Orders) (ho : o.Lists) (n : Nat) (δ : Type) (K : Slack) (hf : K.fallbacks ≠ .typed)
    (f : Expr) (sc : UScope) (s s' : Checker) (io : Nat × Nat) (hg : Good s) (hs : f.Solid) (hx : f.Exact K)
    (h : inferLambda o n f sc s = .ok (io, s')) :
    Good s' ∧ ∀ σ, Solves σ s' → Solves σ s ∧ ∀ (scope : Scope δ) (a r : Value), sc.Agrees K σ scope →
      a.HasType K (σ io.1) → f.evalLambda scope a = .ok r → r.HasType K (σ io.2) := by
  have hl := (yields_lambda (δ := δ) (n := n) ho hf f sc hs s io s' hg h).2
  refine ⟨hl.good, fun σ hσ => ⟨(hl.solves σ hσ).1, ?_⟩⟩
  exact (hl.solves σ hσ).2 hx

/-- **Patterns.**  When a value of the type of a pattern matches it, the names it binds have values of the types of
their meta-variables (so the scope of the branch agrees with the one its body was checked in). -/
theorem C57_pattern (o : Orders) (ho : o.Lists) (n : Nat) (δ : Type) (K : Slack) (p : Pattern) (sc sc' : UScope)
    (s s' : Checker) (v : Nat) (hg : Good s) (h : inferPattern o n p sc s = .ok ((v, sc'), s')) :
    Good s' ∧ ∀ σ, Solves σ s' → Solves σ s ∧ ∀ (scope : Scope δ) (x : Value) bs, x.HasType K (σ v) →
      sc.Agrees K σ scope → x.matchesPat p = some bs → sc'.Agrees K σ (scope.withBindings bs) := by
  have hl := (yields_pattern (n := n) (K := K) ho p sc s (v, sc') s' hg h).2
  refine ⟨hl.good, fun σ hσ => ⟨(hl.solves σ hσ).1, ?_⟩⟩
  intro scope x bs hx ha hm
  exact PatSound.agrees (hl.solves σ hσ).2 hm hx ha

/-- **Annotations.**  When a meta-variable is given an annotated type, every solution gives it that type.  (Partial:
the annotation contains no union, whose alternatives may be added to, and none of the types that stand for any type.) -/
theorem C57_annotation_partial (o : Orders) (ho : o.Lists) (n : Nat) (t : ValueType) (v : Nat) (s s' : Checker)
    (hg : Good s) (hs : t.Rigid) (h : unifyVarValueType o n t v s = .ok ((), s')) :
    Good s' ∧ ∀ σ, Solves σ s' → Solves σ s ∧ σ v = t := by
  have hl := (yields_varV (n := n) ho t v (ValueType.Rigid.solid hs) s () s' hg h).2
  exact ⟨hl.good, fun σ hσ => ⟨(hl.solves σ hσ).1, (hl.solves σ hσ).2 hs⟩⟩

/-! ### the hypotheses are met -/

/-- the state after an expression was checked -/
def exprState (e : Expr) : Checker :=
  match inferExpr demoOrders 20 e [] Checker.new with
  | .ok (_, s) => s
  | _ => Checker.new

/-- the expression is accepted, at the given meta-variable -/
def exprAccepted (e : Expr) (v : Nat) : Bool :=
  match inferExpr demoOrders 20 e [] Checker.new with
  | .ok (w, _) => decide (v = w)
  | _ => false

theorem exprAccepted_ok {e : Expr} {v : Nat} (h : exprAccepted e v = true) :
    inferExpr demoOrders 20 e [] Checker.new = .ok (v, exprState e) := by
  unfold exprAccepted at h
  unfold exprState
  cases hr : inferExpr demoOrders 20 e [] Checker.new with
  | ok p => rw [hr] at h; simp only [decide_eq_true_eq] at h; rw [h]
  | err e => rw [hr] at h; cases h
  | panic => rw [hr] at h; cases h
  | fuel => rw [hr] at h; cases h

attribute [local irreducible] exprState

private def u8 (n : Fin 256) : Expr := .lit .b8 n

/-- `{ sum: LeftFold(λp. p.0 + p.1, 0u8, U8, match A(20) { A(n) → [n, n + 1], _ → [] }), any: Some(true) }` -/
private def sample : Expr :=
  .record
    [("sum", .leftFold (.lambda "p" (.arith .add (.tupleProj (.var "p") 0) (.tupleProj (.var "p") 1)))
      (u8 0) (.base (.num .b8))
      (.match_ (.variant "A" (u8 20))
        [(.variant "A" (.binding "n"), .seq [.var "n", .arith .add (.var "n") (u8 1)]),
          (.wildcard, .seq [])])),
     ("any", .liftSome (.bool true))]

example : sample.Solid ∧ sample.Exact .basic := by
  simp [sample, u8, Expr.Solid, Expr.SolidFields, Expr.SolidBranches, Expr.SolidList, ValueType.Solid, Expr.Exact,
    Expr.ExactFields, Expr.ExactBranches, Expr.ExactList, Expr.freeFields, Expr.free]

example : inferExpr demoOrders 20 sample [] Checker.new = .ok (0, exprState sample) :=
  exprAccepted_ok (by decide +kernel)

example : ∃ σ, Solves σ (exprState sample) ∧
    σ 0 = .record [("sum", .base (.num .b8)), ("any", .option (.base .bool))] :=
  ⟨assign (candidate (exprState sample)), solves_of_solvesB (by decide +kernel),
    ValueType.eq_of_same _ _ (by decide +kernel)⟩

example : sample.eval (δ := Unit) .empty =
    .ok (.record [("sum", .num (.fixed .b8) ⟨41, by decide⟩), ("any", .optSome (.bool true))]) := by
  with_unfolding_all rfl

/-! ### what is not true -/

private def shadowed : Expr := .match_ (.bool true) [(.binding "a", .record [("a", u8 1), ("b", .var "a")])]
private def lengths : Expr := .seq [.seqLength (.seq []), u8 1]
private def infinite : Expr := .match_ (.seq []) [(.binding "a", .append (.var "a") (.seq [.var "a"]))]
private def pairOf : Expr := .tuple [.variant "A" (u8 1), .bool true]
private def annotated : Expr := .leftFold (.lambda "p" (.tupleProj (.var "p") 0)) pairOf
  (.tuple [.union [("A", .base (.num .b8))]]) (.seq [])

/-- A record whose field mentions the label of an earlier field: the type checker takes the name for the field, the
evaluator for the variable of that name outside.  `match true { a → { a: 1u8, b: a } }` has type `{ a: U8, b: U8 }` in
every solution, and its value is `{ a: 1, b: true }`. -/
theorem C57_record_scope_refuted :
    ∃ (e : Expr) (v : Nat) (s' : Checker) (x : Value), inferExpr demoOrders 20 e [] Checker.new = .ok (v, s') ∧
      (∃ σ, Solves σ s') ∧ e.eval (δ := Unit) .empty = .ok x ∧ ∀ σ K, Solves σ s' → ¬ x.HasType K (σ v) := by
  refine ⟨shadowed, 0, exprState shadowed,
    .record [("a", .num (.fixed .b8) ⟨1, by decide⟩), ("b", .bool true)], exprAccepted_ok (by decide +kernel),
    ⟨_, solves_of_solvesB (ts := candidate (exprState shadowed)) (by decide +kernel)⟩, by with_unfolding_all rfl, fun σ K hσ hx => ?_⟩
  have h0 := hσ.holds 0
  have h5 := hσ.holds 5
  rw [show Checker.known (exprState shadowed) 0 = .invariant (.equiv (.record [("a", .var 4), ("b", .var 5)])) by decide +kernel] at h0
  rw [show Checker.known (exprState shadowed) 5 = .invariant (.equiv (.base (.num .b8))) by decide +kernel] at h5
  simp only [UConstraints.Holds, UConstraint.Holds, reduceCtorEq, false_or, UType.inst, UType.instFields] at h0 h5
  rw [h0, h5] at hx
  simp [Value.HasType, Value.FieldsHave] at hx

/-- The length of a sequence is a `U32` at run time, but the type checker accepts it at every unsigned type: `[length
of [], 1u8]` is a sequence of `U8`, and the first element of its value is a `U32`. -/
theorem C57_seqLength_refuted :
    ∃ (e : Expr) (v : Nat) (s' : Checker) (x : Value), inferExpr demoOrders 20 e [] Checker.new = .ok (v, s') ∧
      (∃ σ, Solves σ s') ∧ e.eval (δ := Unit) .empty = .ok x ∧ ∀ σ K, Solves σ s' → ¬ x.HasType K (σ v) := by
  refine ⟨lengths, 0, exprState lengths,
    .seq (.strict [.num (.fixed .b32) ⟨0, by decide⟩, .num (.fixed .b8) ⟨1, by decide⟩]), exprAccepted_ok (by decide +kernel),
    ⟨_, solves_of_solvesB (ts := candidate (exprState lengths)) (by decide +kernel)⟩, by with_unfolding_all rfl, fun σ K hσ hx => ?_⟩
  have h0 := hσ.holds 0
  have h1 := hσ.holds 1
  rw [show Checker.known (exprState lengths) 0 = .invariant (.equiv (.seq (.var 1) .constructed)) by decide +kernel] at h0
  rw [show Checker.known (exprState lengths) 1 = .invariant (.equiv (.base (.num .b8))) by decide +kernel] at h1
  simp only [UConstraints.Holds, UConstraint.Holds, reduceCtorEq, false_or, UType.inst] at h0 h1
  rw [h0, h1] at hx
  obtain ⟨u, e, hx⟩ := Value.hasType_seq.mp hx
  cases e
  have := hx _ (.head _)
  simp [Value.HasType] at this

/-- Infinite types are accepted: `match [] { a → append a [a] }` is accepted, although no assignment of types
solves the state; it has a value. -/
theorem C57_infinite_type_refuted :
    ∃ (e : Expr) (v : Nat) (s' : Checker) (x : Value), inferExpr demoOrders 20 e [] Checker.new = .ok (v, s') ∧
      e.Solid ∧ e.Exact .basic ∧ e.eval (δ := Unit) .empty = .ok x ∧ ∀ σ, ¬ Solves σ s' := by
  refine ⟨infinite, 0, exprState infinite, _, exprAccepted_ok (by decide +kernel),
    by simp [infinite, Expr.Solid, Expr.SolidBranches, Expr.SolidList],
    by simp [infinite, Expr.Exact, Expr.ExactBranches, Expr.ExactList], by with_unfolding_all rfl, fun σ hσ => ?_⟩
  have h1 := hσ.holds 1
  have h2 := hσ.same 2 1 (by unfold Checker.Same; decide +kernel)
  rw [show Checker.known (exprState infinite) 1 = .invariant (.equiv (.seq (.var 2) .constructed)) by decide +kernel] at h1
  simp only [UConstraints.Holds, UConstraint.Holds, reduceCtorEq, false_or, UType.inst] at h1
  rw [h2] at h1
  have := congrArg sizeOf h1
  simp only [ValueType.seq.sizeOf_spec] at this
  omega

/-- An annotation with a union inside a tuple only fixes the components it lists: a tuple with more components is
accepted.  Here the accumulator of a fold starts with `(A 1, true)` and its annotated type is `(Union{A: U8})`. -/
theorem C57_tuple_annotation_refuted :
    ∃ (f a xs : Expr) (t : ValueType) (v : Nat) (s' : Checker) (x : Value), t.Solid ∧
      inferExpr demoOrders 20 (.leftFold f a t xs) [] Checker.new = .ok (v, s') ∧ (∃ σ, Solves σ s') ∧
      a.eval (δ := Unit) .empty = .ok x ∧ ∀ K, ¬ x.HasType K t := by
  refine ⟨_, pairOf, _, _, 0, exprState annotated,
    .tuple [.variant "A" (.num (.fixed .b8) ⟨1, by decide⟩), .bool true], ?_, exprAccepted_ok (e := annotated) (by decide +kernel),
    ⟨_, solves_of_solvesB (ts := candidate (exprState annotated)) (by decide +kernel)⟩, by with_unfolding_all rfl,
    fun K hx => ?_⟩
  · simp [ValueType.Solid, ValueType.SolidList, ValueType.SolidFields]
  · simp [Value.HasType, Value.HaveTypes] at hx

end Tc
end Doodle
