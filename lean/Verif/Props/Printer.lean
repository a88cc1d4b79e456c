import Verif.Lemmas.Printing

/-! C43: printed numeric expressions are unambiguous.  C46: generated operator expressions mean what the
interpreter computes. -/

namespace Doodle
namespace Printer

open Reading
open Num (BasicBinOp BasicUnaryOp)

/-! ### C43 -/

/-- What is printed for *any* numeric expression is read, by the usual rules, as that expression with its
chains of same-class operators regrouped to the left. -/
theorem C43_read (e : Num.Expr) : ReadAs numRules (showTokens e) (ofNum (regroup e)) := by
  have := (regroup_leftLeaning e).normal.readAs numRules_wf .TOP
  rw [print_regroup] at this
  exact this

/-- Left-leaning expressions are read back unchanged.  Partial: other expressions are not
(`C43_refuted`). -/
theorem C43_partial {e : Num.Expr} (h : LeftLeaning e) : ReadAs numRules (showTokens e) (ofNum e) :=
  h.normal.readAs numRules_wf .TOP

/-- Exactly which expressions are confused: two expressions print the same tokens if and only if
regrouping makes them equal. -/
theorem C43_collisions (e e' : Num.Expr) : showTokens e = showTokens e' ↔ regroup e = regroup e' := by
  constructor
  · intro h
    have h' := C43_read e'
    rw [← h] at h'
    exact ofNum_inj ((C43_read e).unique h')
  · intro h
    have h1 := print_regroup e .TOP
    have h2 := print_regroup e' .TOP
    rw [h] at h1
    exact h1.symm.trans h2

/-- Exactly which expressions are read back: the left-leaning ones. -/
theorem C43_exact (e : Num.Expr) : ReadAs numRules (showTokens e) (ofNum e) ↔ LeftLeaning e := by
  constructor
  · intro h
    have := ofNum_inj (h.unique (C43_read e))
    rw [this]
    exact regroup_leftLeaning e
  · exact C43_partial

/-- No two left-leaning expressions print the same tokens. -/
theorem C43_injective_partial {e e' : Num.Expr} (h : LeftLeaning e) (h' : LeftLeaning e')
    (heq : showTokens e = showTokens e') : e = e' := by
  have := (C43_collisions e e').mp heq
  rwa [regroup_of_leftLeaning h, regroup_of_leftLeaning h'] at this

/-- The property is false: `1 - (1 - 1)` and `(1 - 1) - 1` are different expressions with different values
and the same text `1? - 1? - 1?`. -/
theorem C43_refuted : ∃ e e' : Num.Expr, e ≠ e' ∧ showExpr e = showExpr e' ∧
    e.eval (fun _ => .err (.unknownVar "")) ≠ e'.eval (fun _ => .err (.unknownVar "")) := by
  refine ⟨.binOp .sub none (.const ⟨1, .auto⟩) (.binOp .sub none (.const ⟨1, .auto⟩) (.const ⟨1, .auto⟩)),
    .binOp .sub none (.binOp .sub none (.const ⟨1, .auto⟩) (.const ⟨1, .auto⟩)) (.const ⟨1, .auto⟩),
    by decide, by decide +kernel, by decide +kernel⟩

/-- The text adds a confusion of its own: the absolute value of `x` is written like the variable `absx`,
though their tokens differ. -/
theorem C43_text_refuted : ∃ e e' : Num.Expr, LeftLeaning e ∧ LeftLeaning e' ∧ e ≠ e' ∧
    showTokens e ≠ showTokens e' ∧ showExpr e = showExpr e' :=
  ⟨.unaryOp .absVal none (.numVar "x"), .numVar "absx", trivial, trivial, by decide, by decide,
    by decide +kernel⟩

/-- `a * (b + c) - ~d as u8` needs, and gets, one pair of parentheses. -/
example : LeftLeaning (.binOp .sub none
    (.binOp .mul none (.numVar "a") (.binOp .add none (.numVar "b") (.numVar "c")))
    (.cast Num.U8 false (.unaryOp .negate none (.numVar "d")))) :=
  ⟨⟨trivial, ⟨trivial, trivial, fun _ _ _ _ h => by cases h⟩, fun _ _ _ _ h => by cases h; decide⟩,
    trivial, fun _ _ _ _ h => by cases h⟩

example : showExpr (.binOp .sub none
    (.binOp .mul none (.numVar "a") (.binOp .add none (.numVar "b") (.numVar "c")))
    (.cast Num.U8 false (.unaryOp .negate none (.numVar "d")))) = "a * (b + c) - ~d as u8" := by
  decide +kernel

/-! ### C46 -/

/-- Rust reads the tokens generated for a tame operator tree as that tree, wherever it is placed.
Partial: other trees are read differently or not at all (`C46_*_refuted`). -/
theorem C46_read_partial {α : Type} (own : α → Option Prec.Precedence)
    {e : Tree α InfixOperator RPre RPost} (h : Tame e) (current : Prec.Precedence) :
    ReadAs rustRules ((rustStyle own).print e current) e :=
  (h.normal own).readAs rustRules_wf current

/-- If the interpreter gives a tame expression a value, then the generated Rust code, read by Rust's rules
and run without overflow checks, computes that value (given that the leaves do). -/
theorem C46_value_partial {δ : Type} {s : Scope δ} {leaf : Expr → Option RVal} {e : Expr} {v : Value}
    (ht : Tame (embed e)) (hl : LeavesAgree s leaf e) (hv : e.eval s = .ok v) :
    ∃ t r, ReadAs rustRules (rustTokens e) t ∧ RVal.ofValue v.coerceMapped = some r ∧
      rustValue false leaf t = some r := by
  obtain ⟨r, h1, h2⟩ := embed_value (checks := false) hl (fun h => by cases h) hv
  exact ⟨embed e, r, C46_read_partial leafOwn ht .TOP, h1, h2⟩

/-- The same with overflow checks on, for expressions without shifts. -/
theorem C46_checked_partial {δ : Type} {s : Scope δ} {leaf : Expr → Option RVal} {e : Expr} {v : Value}
    (ht : Tame (embed e)) (hn : NoShift (embed e)) (hl : LeavesAgree s leaf e) (hv : e.eval s = .ok v) :
    ∃ t r, ReadAs rustRules (rustTokens e) t ∧ RVal.ofValue v.coerceMapped = some r ∧
      rustValue true leaf t = some r := by
  obtain ⟨r, h1, h2⟩ := embed_value (checks := true) hl (fun _ => hn) hv
  exact ⟨embed e, r, C46_read_partial leafOwn ht .TOP, h1, h2⟩

/-- a literal of type `u32` -/
abbrev u32 (n : Fin (UKind.fixed .b32).card) : Expr := .lit .b32 n

/-- what a literal or variable-free leaf evaluates to -/
def litLeaf : Expr → Option RVal
  | .lit w n => some (.uint (.fixed w) n.val)
  | .bool b => some (.bool b)
  | _ => none

/-- reading with a fixed recursion bound -/
theorem readAs_of_print {e t : Tree Expr InfixOperator RPre RPost} (ht : Tame t)
    (h : (rustStyle leafOwn).print e .TOP = (rustStyle leafOwn).print t .TOP) :
    ReadAs rustRules ((rustStyle leafOwn).print e .TOP) t := by
  rw [h]
  exact C46_read_partial leafOwn ht .TOP

/-- Miscompilation: `100 / (10 / 5)` is 50 in the interpreter; the generated code is `100 / 10 / 5`, which
is 2 in Rust. -/
theorem C46_division_refuted : ∃ (e : Expr) (v : Value) (t : Tree Expr InfixOperator RPre RPost),
    e.eval (Scope.empty : Scope Unit) = .ok v ∧ RVal.ofValue v = some (.uint (.fixed .b32) 50) ∧
      LeavesAgree (Scope.empty : Scope Unit) litLeaf e ∧
      ReadAs rustRules (rustTokens e) t ∧ rustValue true litLeaf t = some (.uint (.fixed .b32) 2) := by
  refine ⟨.arith .div (u32 100) (.arith .div (u32 10) (u32 5)), .num (.fixed .b32) 50,
    .bin .div (.bin .div (.atom (u32 100)) (.atom (u32 10))) (.atom (u32 5)), rfl, rfl, ?_, ?_,
    by decide +kernel⟩
  · intro x hx v hv
    simp only [embed, infixOfArith, leaves, List.mem_append, List.mem_cons, List.not_mem_nil, or_false] at hx
    rcases hx with rfl | rfl | rfl <;> cases hv <;>
      exact ⟨_, by simp only [Value.coerceMapped, RVal.ofValue], rfl⟩
  · exact readAs_of_print ⟨⟨trivial, trivial, by decide, by decide⟩, trivial, by decide, by decide⟩ rfl

/-- Shifts are confused in the same way: `1 << (1 << 3)` is 256, its code `1 << 1 << 3` is 16. -/
theorem C46_shift_refuted : ∃ (e : Expr) (v : Value) (t : Tree Expr InfixOperator RPre RPost),
    e.eval (Scope.empty : Scope Unit) = .ok v ∧ RVal.ofValue v = some (.uint (.fixed .b32) 256) ∧
      ReadAs rustRules (rustTokens e) t ∧ rustValue true litLeaf t = some (.uint (.fixed .b32) 16) := by
  refine ⟨.arith .shl (u32 1) (.arith .shl (u32 1) (u32 3)), .num (.fixed .b32) 256,
    .bin .shl (.bin .shl (.atom (u32 1)) (.atom (u32 1))) (.atom (u32 3)), rfl, rfl, ?_,
    by decide +kernel⟩
  exact readAs_of_print ⟨⟨trivial, trivial, by decide, by decide⟩, trivial, by decide, by decide⟩ rfl

/-- Operands of comparisons lose their grouping: `false == (true && false)` is printed as
`false == true && false`, which Rust reads as `(false == true) && false`. -/
theorem C46_comparison_refuted : ∃ e t : Tree Bool InfixOperator RPre RPost,
    ReadAs rustRules ((rustStyle fun _ => none).print e .TOP) t ∧
      rustValue true (fun b => some (.bool b)) e = some (.bool true) ∧
      rustValue true (fun b => some (.bool b)) t = some (.bool false) := by
  refine ⟨.bin .eq (.atom false) (.bin .boolAnd (.atom true) (.atom false)),
    .bin .boolAnd (.bin .eq (.atom false) (.atom true)) (.atom false), ⟨7, fun n hn => ?_⟩,
    by decide +kernel, by decide +kernel⟩
  obtain ⟨k, rfl⟩ : ∃ k, n = k + 7 := ⟨n - 7, by omega⟩
  rfl

/-- Nested comparisons are printed as a chain, which Rust rejects: `(a < b) < c`. -/
theorem C46_chain_refuted : ∃ e : Tree String InfixOperator RPre RPost,
    ∀ n, expr rustRules n ((rustStyle fun _ => none).print e .TOP) = none := by
  refine ⟨.bin .lt (.bin .lt (.atom "a") (.atom "b")) (.atom "c"), fun n => ?_⟩
  match n with
  | 0 => rfl
  | 1 => rfl
  | 2 => rfl
  | 3 => rfl
  | 4 => rfl
  | 5 => rfl
  | 6 => rfl
  | k + 7 => rfl

/-- With overflow checks, a shift by 2^32 aborts the generated code, while the interpreter truncates the
amount and returns a value. -/
theorem C46_shift_amount_refuted : ∃ (e : Expr) (v : Value),
    e.eval (Scope.empty : Scope Unit) = .ok v ∧ Tame (embed e) ∧ rustValue true litLeaf (embed e) = none :=
  ⟨.arith .shl (.lit .b64 1) (.lit .b64 4294967296), .num (.fixed .b64) 1, rfl,
    ⟨trivial, trivial, by decide, by decide⟩, by decide +kernel⟩

/-- `(a + b) * c == 7 && !d` is tame. -/
example : Tame (embed (.arith .boolAnd
    (.intRel .eq (.arith .mul (.arith .add (.var "a") (.var "b")) (.var "c")) (u32 7))
    (.unary .boolNot (.var "d")))) := by
  simp [embed, infixOfArith, infixOfRel, Tame, rootClass, infixClass, InfixClass.compares]
  rfl

end Printer
end Doodle
