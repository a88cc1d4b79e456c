import Verif.Lemmas.Elaborate

/-!
C41: inference of the machine types of numeric expressions.
-/

namespace Doodle
namespace Tc

open Num (MachineRep NumRep)
open TypingSpec

/-- `(1 + 300u16) * (-2 as i8) as u16` -/
def sampleExpr : Num.Expr :=
  .binOp .mul none
    (.binOp .add none (.const ⟨1, .auto⟩) (.const ⟨300, .concrete Num.U16⟩))
    (.cast Num.U16 true (.unaryOp .negate (some Num.I8) (.const ⟨2, .auto⟩)))

/-- its one typing -/
def sampleTyped : TypedExpr :=
  .binOp Num.U16 ((Num.U16, Num.U16), Num.U16) .mul none
    (.binOp Num.U16 ((Num.U16, Num.U16), Num.U16) .add none (.const Num.U16 ⟨1, .auto⟩)
      (.const Num.U16 ⟨300, .concrete Num.U16⟩))
    (.cast Num.U16 (Num.I8, Num.U16) Num.U16 true
      (.unaryOp Num.I8 (Num.I8, Num.I8) .negate (some Num.I8) (.const Num.I8 ⟨2, .auto⟩)))

/-- **C41.** For every numeric expression, inference and elaboration end without failing an assertion.  They
succeed exactly when the typing rules leave one way to give types to all parts of the expression, and then they give
that one.  (Four nested calls of the unification functions are always enough.) -/
theorem C41_elaborate (e : Num.Expr) (fuel : Nat) (hf : 4 ≤ fuel) :
    (∃ t, elaborate fuel e = .ok t ∧ Unique t e) ∨
    (∃ x, elaborate fuel e = .err x ∧ ¬ ∃ t, Unique t e) := by
  obtain ⟨n, rfl⟩ : ∃ n, fuel = n + 4 := ⟨fuel - 4, by omega⟩
  exact Engine.elaborate_spec n e

/-- an expression with constants of both kinds, an operation that names its type, and a cast -/
example : elaborate 4 sampleExpr = .ok sampleTyped := by decide +kernel

/-- two ways to type it, and no way to type it -/
example : elaborate 4 (.binOp .add none (.const ⟨1, .auto⟩) (.const ⟨2, .auto⟩)) = .err (.badReification 1) ∧
    elaborate 4 (.binOp .add none (.const ⟨1, .concrete Num.U8⟩) (.const ⟨2, .concrete Num.I8⟩)) =
      .err (.inference .ambiguous) ∧
    elaborate 4 (.binOp .add none (.const ⟨256, .auto⟩) (.const ⟨2, .concrete Num.U8⟩)) =
      .err (.inference (.badUnification (.equiv (.int Num.U8)) (.encompasses ⟨256, 256⟩))) := by
  decide +kernel

/-- **C41, as an equivalence.** The types are found if and only if they are determined. -/
theorem C41_iff (e : Num.Expr) (t : TypedExpr) (fuel : Nat) (hf : 4 ≤ fuel) :
    elaborate fuel e = .ok t ↔ Unique t e := by
  rcases C41_elaborate e fuel hf with ⟨t', h1, h2⟩ | ⟨x, h1, h2⟩
  · constructor
    · intro h
      rw [h1] at h
      cases h
      exact h2
    · intro h
      rw [h1, h.2 t' h2.1]
  · constructor
    · intro h
      rw [h1] at h
      cases h
    · intro h
      exact absurd ⟨t, h⟩ h2

example : Unique sampleTyped sampleExpr := (C41_iff _ _ 4 (Nat.le_refl _)).mp (by decide +kernel)

/-- **C41**, on its own: all the types given obey the typing rules. -/
theorem C41_sound (e : Num.Expr) (t : TypedExpr) (fuel : Nat) (hf : 4 ≤ fuel) (h : elaborate fuel e = .ok t) :
    t.toExpr = e ∧ Typing t :=
  ((C41_iff e t fuel hf).mp h).1

/-- **C41 and evaluation.** If an expression can be given types at all, evaluating it never reports that the types
of operands disagree, and a value with a type has the type given to the expression; a value without a type comes from
an expression that says nothing about its type. -/
theorem C41_eval {t : TypedExpr} (ht : Typing t) (scope : String → Num.Out Num.StrictValue) :
    (∀ a b, t.toExpr.eval scope ≠ .err (.ambiguous a b)) ∧
    ∀ c, t.toExpr.eval scope = .ok c →
      (untyped t.toExpr = true ∧ c.rep = .auto) ∨ (untyped t.toExpr = false ∧ c.rep = .concrete t.getType) := by
  have bin : ∀ (op : Num.BasicBinOp) (o : Option MachineRep) (l r : TypedExpr) (T : MachineRep),
      (∀ a b, l.toExpr.eval scope ≠ .err (.ambiguous a b)) → (∀ a b, r.toExpr.eval scope ≠ .err (.ambiguous a b)) →
      (∀ c, l.toExpr.eval scope = .ok c →
        (untyped l.toExpr = true ∧ c.rep = .auto) ∨ (untyped l.toExpr = false ∧ c.rep = .concrete l.getType)) →
      (∀ c, r.toExpr.eval scope = .ok c →
        (untyped r.toExpr = true ∧ c.rep = .auto) ∨ (untyped r.toExpr = false ∧ c.rep = .concrete r.getType)) →
      (o = none → l.getType = T ∧ r.getType = T) → (∀ s, o = some s → s = T) →
      (∀ a b, (Num.Expr.binOp op o l.toExpr r.toExpr).eval scope ≠ .err (.ambiguous a b)) ∧
      ∀ c, (Num.Expr.binOp op o l.toExpr r.toExpr).eval scope = .ok c →
        (untyped (.binOp op o l.toExpr r.toExpr) = true ∧ c.rep = .auto) ∨
        (untyped (.binOp op o l.toExpr r.toExpr) = false ∧ c.rep = .concrete T) := by
    intro op o l r T al ar hl hr hn hs
    simp only [Num.Expr.eval]
    cases el : l.toExpr.eval scope with
    | panic => exact ⟨(fun a b h => nomatch h), (fun c h => nomatch h)⟩
    | err x =>
      refine ⟨fun a b h => al a b ?_, (fun c h => nomatch h)⟩
      rw [el]
      exact h
    | ok a =>
      cases er : r.toExpr.eval scope with
      | panic => exact ⟨(fun a b h => nomatch h), (fun c h => nomatch h)⟩
      | err x =>
        refine ⟨fun a b h => ar a b ?_, (fun c h => nomatch h)⟩
        rw [er]
        exact h
      | ok b =>
        have hla := hl a el
        have hrb := hr b er
        simp only [Num.Out.bind]
        unfold Num.evalBinOp
        have fin : ∀ raw : Int,
            (∀ x y, (match (generalizing := false) o with
              | some rep => Num.Out.ok ⟨raw, .concrete rep⟩
              | none =>
                if a.rep = b.rep ∨ b.rep.isAuto then .ok ⟨raw, a.rep⟩
                else if a.rep.isAuto then .ok ⟨raw, b.rep⟩
                else .err (.ambiguous a.rep b.rep) : Num.Out Num.TypedConst) ≠ .err (.ambiguous x y)) ∧
            ∀ c, (match (generalizing := false) o with
              | some rep => Num.Out.ok ⟨raw, .concrete rep⟩
              | none =>
                if a.rep = b.rep ∨ b.rep.isAuto then .ok ⟨raw, a.rep⟩
                else if a.rep.isAuto then .ok ⟨raw, b.rep⟩
                else .err (.ambiguous a.rep b.rep) : Num.Out Num.TypedConst) = .ok c →
              (untyped (.binOp op o l.toExpr r.toExpr) = true ∧ c.rep = .auto) ∨
              (untyped (.binOp op o l.toExpr r.toExpr) = false ∧ c.rep = .concrete T) := by
          intro raw
          cases o with
          | some s =>
            refine ⟨fun x y h => (by cases h), fun c h => ?_⟩
            cases h
            rw [hs s rfl]
            exact .inr ⟨rfl, rfl⟩
          | none =>
            obtain ⟨h1, h2⟩ := hn rfl
            simp only [untyped, Option.isNone_none, Bool.true_and]
            rcases hla with ⟨ul, rl⟩ | ⟨ul, rl⟩ <;> rcases hrb with ⟨ur, rr⟩ | ⟨ur, rr⟩ <;>
              simp [ul, ur, rl, rr, h1, h2, NumRep.isAuto]
            all_goals (intro c h; cases h; rfl)
        cases op with
        | add => exact fin (a.val + b.val)
        | sub => exact fin (a.val - b.val)
        | mul => exact fin (a.val * b.val)
        | div =>
          by_cases hz : b.val = 0
          · simp only [if_pos hz]
            exact ⟨fun x y h => (by cases h), fun c h => (by cases h)⟩
          · simp only [if_neg hz]
            exact fin (a.val.tdiv b.val)
        | rem =>
          by_cases hz : b.val > 0
          · simp only [if_pos hz]
            exact fin (a.val.tmod b.val)
          · simp only [if_neg hz]
            exact ⟨fun x y h => (by cases h), fun c h => (by cases h)⟩
  have un : ∀ (op : Num.BasicUnaryOp) (o : Option MachineRep) (e : TypedExpr) (T : MachineRep),
      (∀ a b, e.toExpr.eval scope ≠ .err (.ambiguous a b)) →
      (∀ c, e.toExpr.eval scope = .ok c →
        (untyped e.toExpr = true ∧ c.rep = .auto) ∨ (untyped e.toExpr = false ∧ c.rep = .concrete e.getType)) →
      (o = none → e.getType = T) → (∀ s, o = some s → s = T) →
      (∀ a b, (Num.Expr.unaryOp op o e.toExpr).eval scope ≠ .err (.ambiguous a b)) ∧
      ∀ c, (Num.Expr.unaryOp op o e.toExpr).eval scope = .ok c →
        (untyped (.unaryOp op o e.toExpr) = true ∧ c.rep = .auto) ∨
        (untyped (.unaryOp op o e.toExpr) = false ∧ c.rep = .concrete T) := by
    intro op o e T ae he hn hs
    simp only [Num.Expr.eval]
    cases ee : e.toExpr.eval scope with
    | panic => exact ⟨(fun a b h => nomatch h), (fun c h => nomatch h)⟩
    | err x =>
      refine ⟨fun a b h => ae a b ?_, (fun c h => nomatch h)⟩
      rw [ee]
      exact h
    | ok a =>
      have hea := he a ee
      simp only [Num.Out.bind]
      have hrep : ∃ v, Num.evalUnaryOp op o a =
          .ok ⟨v, match (generalizing := false) o with | some rep => NumRep.concrete rep | none => a.rep⟩ := by
        cases op <;> exact ⟨_, rfl⟩
      obtain ⟨v, hv⟩ := hrep
      rw [hv]
      refine ⟨fun x y h => (by cases h), fun c h => ?_⟩
      cases h
      cases o with
      | some s => rw [hs s rfl]; exact .inr ⟨rfl, rfl⟩
      | none =>
        have h1 := hn rfl
        simp only [untyped, Option.isNone_none, Bool.true_and]
        rw [h1] at hea
        exact hea
  induction ht with
  | named =>
    refine ⟨fun a b h => (by cases h), fun c h => ?_⟩
    cases h
    exact .inr ⟨rfl, rfl⟩
  | unnamed =>
    refine ⟨fun a b h => (by cases h), fun c h => ?_⟩
    cases h
    exact .inl ⟨rfl, rfl⟩
  | bin _ _ h3 h4 ih1 ih2 =>
    exact bin _ _ _ _ _ ih1.1 ih2.1 ih1.2 ih2.2 (fun _ => ⟨h3, h4⟩) (fun s h => nomatch h)
  | binTo _ _ h3 h4 ih1 ih2 =>
    exact bin _ _ _ _ _ ih1.1 ih2.1 ih1.2 ih2.2 (fun h => nomatch h) (fun s h => (Option.some.inj h).symm)
  | un _ h2 ih => exact un _ _ _ _ ih.1 ih.2 (fun _ => h2) (fun s h => nomatch h)
  | unTo _ h2 ih => exact un _ _ _ _ ih.1 ih.2 (fun h => nomatch h) (fun s h => (Option.some.inj h).symm)
  | @cast T bw e _ h2 ih =>
    simp only [TypedExpr.toExpr, Num.Expr.eval]
    cases ee : e.toExpr.eval scope with
    | panic => exact ⟨(fun a b h => nomatch h), (fun c h => nomatch h)⟩
    | err x =>
      refine ⟨fun a b h => ih.1 a b ?_, (fun c h => nomatch h)⟩
      rw [ee]
      exact h
    | ok a =>
      simp only [Num.Out.bind]
      unfold Num.evalCast
      cases bw with
      | false =>
        refine ⟨fun x y h => (by cases h), fun c h => ?_⟩
        cases h
        exact .inr ⟨rfl, rfl⟩
      | true =>
        simp only [if_true]
        cases Num.bitwiseCast a.val a.rep T with
        | panic => exact ⟨fun x y h => (by cases h), fun c h => (by cases h)⟩
        | ok n =>
          refine ⟨fun x y h => (by cases h), fun c h => ?_⟩
          cases h
          exact .inr ⟨rfl, rfl⟩

example : Typing sampleTyped ∧ sampleTyped.toExpr.eval Num.voidScope = .ok ⟨301 * 65534, .concrete Num.U16⟩ :=
  ⟨((C41_iff _ _ 4 (Nat.le_refl _)).mp (by decide +kernel : elaborate 4 sampleExpr = .ok sampleTyped)).1.2,
    by decide +kernel⟩

/-- **C41**: the claim about sequences of unifications outside of inference does not hold.  A variable asked to be
equal to itself makes reading off its type run for ever, whatever the depth allowed (C49 has a failing
assertion). -/
theorem C41_self_refuted :
    ∃ g, Engine.new.initVarSimple 4 (.var 0) = .ok (0, g) ∧ ∀ n, g.reifyErr n (.var 0) = .fuel := by
  refine ⟨⟨[some (.equiv (.var 0))], [.ground]⟩, by decide +kernel, fun n => ?_⟩
  have hw : ∀ n, Engine.toWhnf n ⟨[some (.equiv (.var 0))], [.ground]⟩ (.var 0) = .fuel := by
    intro n
    induction n with
    | zero => rfl
    | succ n ih => exact ih
  cases n with
  | zero => rfl
  | succ n =>
    have := hw n
    show (Engine.toWhnf n ⟨[some (.equiv (.var 0))], [.ground]⟩ (.var 0) >>= fun t => Outcome.ok (some t)) >>= _ = _
    rw [this]
    rfl

end Tc
end Doodle
