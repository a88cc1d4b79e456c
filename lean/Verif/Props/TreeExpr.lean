import Verif.Lemmas.TreeExpr

/-!
C66: expressions in tree views can be read back.  `treeRules` (Spec/TreeExpr.lean) are the usual rules for reading operators,
`ReadAs` (Spec/Reading.lean) is reading by such rules.
-/

namespace Doodle
namespace TreeExpr

open Prec Reading Printer

/-- What a typed expression, printed in any place, is read as: the same expression, with chains of operators of one class regrouped
to the left, and nothing else changed. -/
theorem C66_read {e : Expr} {Γ : TypeScope} {t : ValueType} (ht : e.inferType Γ = .ok t) (hw : Leaves (ofExpr e))
    (current : Precedence) : ReadAs treeRules (tokens e current) (regroup (ofExpr e)) := by
  have h := ((regroup_calm (calm_of_typed e Γ t ht hw)).tame (regroup_leaning _)).normal.readAs treeRules_wf current
  rw [print_regroup] at h
  exact h

/-- Exactly which typed expressions are read back: those in which no right operand is of the class of its operator. -/
theorem C66_exact {e : Expr} {Γ : TypeScope} {t : ValueType} (ht : e.inferType Γ = .ok t) (hw : Leaves (ofExpr e))
    (current : Precedence) : ReadAs treeRules (tokens e current) (ofExpr e) ↔ Leaning (ofExpr e) := by
  constructor
  · intro h
    rw [h.unique (C66_read ht hw current)]
    exact regroup_leaning _
  · intro h
    have := C66_read ht hw current
    rwa [regroup_of_leaning h] at this

/-- Exactly which typed expressions are confused: those that regrouping makes equal. -/
theorem C66_collisions {e e' : Expr} {Γ Γ' : TypeScope} {t t' : ValueType} (ht : e.inferType Γ = .ok t)
    (ht' : e'.inferType Γ' = .ok t') (hw : Leaves (ofExpr e)) (hw' : Leaves (ofExpr e')) (current : Precedence) :
    tokens e current = tokens e' current ↔ regroup (ofExpr e) = regroup (ofExpr e') := by
  constructor
  · intro h
    have h' := C66_read ht' hw' current
    rw [← h] at h'
    exact (C66_read ht hw current).unique h'
  · intro h
    have h1 := print_regroup (ofExpr e) current
    rw [h, print_regroup] at h1
    exact h1.symm

/-- A tame expression, typed or not, is read as that expression.  Partial: other expressions are read differently or not
at all (`C66_*_refuted`). -/
theorem C66_read_partial {e : Expr} (h : Tame (ofExpr e)) (current : Precedence) :
    ReadAs treeRules (tokens e current) (ofExpr e) :=
  h.normal.readAs treeRules_wf current

/-- No two tame expressions are printed alike. -/
theorem C66_distinct_partial {e e' : Expr} (h : Tame (ofExpr e)) (h' : Tame (ofExpr e')) (current current' : Precedence)
    (ht : tokens e current = tokens e' current') : e = e' := by
  have hr := C66_read_partial h current
  rw [ht] at hr
  exact ofExpr_inj (hr.unique (C66_read_partial h' current'))

/-- The tree of an expression determines the expression: nothing is confused before tokens are written. -/
theorem C66_tree {e e' : Expr} (h : ofExpr e = ofExpr e') : e = e' := ofExpr_inj h

/-- `as-u8 (x.len) + seq-ix(i) s * (a | b) == n && !b`, the body of a function -/
abbrev sample : Expr :=
  .lambda "x" (.arith .boolAnd
    (.intRel .eq
      (.arith .add (.asNum .b8 (.recordProj (.var "x") "len"))
        (.arith .mul (.seqIx (.var "s") (.var "i")) (.arith .bitOr (.var "a") (.var "b"))))
      (.var "n"))
    (.unary .boolNot (.var "b")))

example : Tame (ofExpr sample) := by simp [ofExpr, Tame, Whole, Bin.class, root]

/-- a typed one, with a difference on the right of a difference -/
example : ∃ t, Expr.inferType (.intRel .lt (.arith .sub (.var "a") (.arith .sub (.var "b") (.var "c"))) (.var "b"))
      [("a", .value (.u .b8)), ("b", .value (.u .b8)), ("c", .value (.u .b8))] = .ok t ∧
    Leaves (ofExpr (.intRel .lt (.arith .sub (.var "a") (.arith .sub (.var "b") (.var "c"))) (.var "b"))) ∧
    ¬ Leaning (ofExpr (.intRel .lt (.arith .sub (.var "a") (.arith .sub (.var "b") (.var "c"))) (.var "b"))) :=
  ⟨.bool, by simp [Expr.inferType, TypeScope.getValue, TypeScope.get, ValueType.arithI, ValueType.unifyI, ValueType.unify,
    Outcome.ofOption, ValueType.needNumeric, ValueType.isNumeric, BaseType.isNumeric, ValueType.u],
    by simp [ofExpr, Leaves, Whole], by simp [ofExpr, Leaning, Bin.class, root, Class.chains]⟩

/-- the parentheses that it gets: around the comparison, the projection and `a | b` -/
example : tokens sample .TOP =
    [.pre (.lambda "x"), .lp, .pre (.asNum .b8), .lp, .atom (.var "x"), .post (.recordProj "len"), .rp,
      .bin (.arith .add), .pre (.seqIx (.var "i")), .atom (.var "s"), .bin (.arith .mul), .lp, .atom (.var "a"),
      .bin (.arith .bitOr), .atom (.var "b"), .rp, .bin (.rel .eq), .atom (.var "n"), .rp, .bin (.arith .boolAnd),
      .pre (.unary .boolNot), .atom (.var "b")] := rfl

/-- Whatever the operands, the grouping of operators of one class is lost (unless they are `&&`, `||`, `==` or `!=`):
`a op (b op' c)` is printed like `(a op b) op' c`. -/
theorem C66_chain_refuted {o o' : Bin} (h : o'.class = o.class) (hl : o.class ≠ .logical) (he : o.class ≠ .equality)
    (a b c : Tree Expr Bin Pre Post) (current : Precedence) :
    treeStyle.print (.bin o a (.bin o' b c)) current = treeStyle.print (.bin o' (.bin o a b) c) current :=
  print_chain h hl he a b c current

/-- a literal of type `u32` -/
abbrev u32 (n : Fin (UKind.fixed .b32).card) : Expr := .lit .b32 n

/-- The text misleads about values: `5 - (3 - 1)` is 3, but is printed as `5 - 3 - 1`, which is read as an expression whose value
is 1. -/
theorem C66_sub_refuted : ∃ e e' : Expr, ReadAs treeRules (tokens e .TOP) (ofExpr e') ∧
    e.eval (Scope.empty : Scope Unit) = .ok (.num (.fixed .b32) 3) ∧
    e'.eval (Scope.empty : Scope Unit) = .ok (.num (.fixed .b32) 1) := by
  refine ⟨.arith .sub (u32 5) (.arith .sub (u32 3) (u32 1)), .arith .sub (.arith .sub (u32 5) (u32 3)) (u32 1), ?_, rfl, rfl⟩
  have ht : Tame (ofExpr (.arith .sub (.arith .sub (u32 5) (u32 3)) (u32 1))) := by
    simp [ofExpr, Tame, Whole, Bin.class, root]
  exact C66_read_partial ht .TOP

/-- `a == (b && c)`, which has no type, is printed without parentheses, and then read as `(a == b) && c`. -/
theorem C66_equality_refuted : ∃ e e' : Expr, e ≠ e' ∧ ReadAs treeRules (tokens e .TOP) (ofExpr e') := by
  refine ⟨.intRel .eq (.var "a") (.arith .boolAnd (.var "b") (.var "c")),
    .arith .boolAnd (.intRel .eq (.var "a") (.var "b")) (.var "c"), fun h => (nomatch h), ⟨7, fun n hn => ?_⟩⟩
  obtain ⟨k, rfl⟩ : ∃ k, n = k + 7 := ⟨n - 7, by omega⟩
  rfl

/-- `(a == b) < c`, which has no type, is printed as a chain of comparisons, which cannot be read. -/
theorem C66_order_refuted : ∃ e : Expr, ∀ n, expr treeRules n (tokens e .TOP) = none := by
  refine ⟨.intRel .lt (.intRel .eq (.var "a") (.var "b")) (.var "c"), fun n => ?_⟩
  match n with
  | 0 => rfl
  | 1 => rfl
  | 2 => rfl
  | 3 => rfl
  | 4 => rfl
  | 5 => rfl
  | 6 => rfl
  | k + 7 => rfl

/-- A numeric expression with an operator gets no parentheses where it is the right operand of an operator of the same class:
`x - (a - b)`, with a numeric difference on the right, is printed as `x - a - b`. -/
theorem C66_numeric_refuted : ∃ e : Expr, ¬ Whole e ∧
    tokens (.arith .sub (.var "x") e) .TOP = [.atom (.var "x"), .bin (.arith .sub), .atom e] :=
  ⟨.numeric (.binOp .sub none (.numVar "a") (.numVar "b")), id, rfl⟩

end TreeExpr
end Doodle
