import Verif.Lemmas.TypedBounds

/-!
The code generator's compiler does not refuse what the interpreter's compiler accepts.
-/

namespace Doodle
namespace TCompiler

open GTree (NRel)

variable {τ : Type}

/-- The interpreter's compiler compiled this, for a related continuation. -/
def Ready (m : Module) (o : TOpts τ) (M : List ((Nat × Next) × Nat)) (f : TFormat τ) (tnext : TNext τ) : Prop :=
  f.Fit m ∧ f.Usual o.numeric ∧ ∃ next d, (NRel m next tnext ∨ f.erase.NextFree m) ∧
    Compiles (.of m o.base M) f.erase next d

/-- everything that still has to be compiled was compiled by the interpreter's compiler -/
def QOk (m : Module) (o : TOpts τ) (M : List ((Nat × Next) × Nat)) (st : TCompSt τ) : Prop :=
  ∀ e ∈ st.queue, Ready m o M e.1 e.2.1

/-- the table of the interpreter's compiler -/
def Table (m : Module) (o : BuildOpts) (M : List ((Nat × Next) × Nat)) : Prop :=
  ∀ level nx k, ((level, nx), k) ∈ M → ∃ it d, m.items[level]? = some it ∧ Compiles (.of m o M) it.format nx d

theorem tree_to {m : Module} {o : TOpts τ} (hm : m.BytesOk) (ho : o.base.ord.Valid) (ho' : o.ord.Valid)
    {fs : List Format} (hf : Format.EachOf Format.BytesHere fs) {M : List ((Nat × Next) × Nat)} {x : Next} {y : TNext τ}
    (hx : NRel m x y) {t : MatchTree} (h : (CRel.of m o.base M).tree fs x t) : ∃ t', buildOrErr m o fs y = .ok t' := by
  obtain ⟨t', ht⟩ := GTree.build_to hm ho ho' hf hx h
  exact ⟨t', buildOrErr_eq_ok.2 ht⟩

theorem short_to {m : Module} {f : TFormat τ} (hf : f.Fit m) (ha : f.Alike)
    (h : ∃ b, f.erase.lookaheadBounds m = .ok b ∧ Compiler.peekNotAllowed b = true) :
    ∃ b, f.lookaheadBounds = .ok b ∧ Compiler.peekNotAllowed b = true := by
  obtain ⟨b, h1, h2⟩ := h
  exact ⟨b, lookaheadBounds_eq f _ b hf ha h1, h2⟩

theorem callIndex_ok [DecidableEq (TNext τ)] {m : Module} {o : TOpts τ} {M : List ((Nat × Next) × Nat)}
    {st : TCompSt τ} {level : Nat} {g : TFormat τ} {x : TNext τ} (hq : QOk m o M st) (hr : Ready m o M g x) :
    QOk m o M (callIndex st level g x).2 := by
  unfold callIndex
  cases mapGet (level, x) st.map with
  | some n => exact hq
  | none =>
    intro e he
    simp only [queueCompile, List.mem_cons] at he
    rcases he with rfl | he
    · exact hr
    · exact hq e he

/-- the size of all the formats that still have to be compiled -/
noncomputable def todo (st : TCompSt τ) : Nat := (st.queue.map fun e => sizeOf e.1).sum

theorem callIndex_todo [DecidableEq (TNext τ)] {st : TCompSt τ} {level : Nat} {g : TFormat τ} {x : TNext τ} :
    todo (callIndex st level g x).2 ≤ todo st + sizeOf g := by
  unfold callIndex
  cases mapGet (level, x) st.map with
  | some n => simp only []; omega
  | none => simp only [queueCompile, todo, List.map_cons, List.sum_cons]; omega

mutual
theorem compileTyped_ok [DecidableEq (TNext τ)] {m : Module} {o : TOpts τ} (hm : m.BytesOk)
    (ho : o.base.ord.Valid) (ho' : o.ord.Valid) {M : List ((Nat × Next) × Nat)} (hM : Table m o.base M)
    (f : TFormat τ) (tnext : TNext τ) (st : TCompSt τ) (next : Next) (d : Decoder) (hf : f.Fit m)
    (hu : f.Usual o.numeric) (hl : NRel m next tnext ∨ f.erase.NextFree m)
    (hc : Compiles (.of m o.base M) f.erase next d) (hq : QOk m o M st) :
    ∃ d' st', compileTyped m o f tnext st = .ok (d', st') ∧ QOk m o M st' ∧ todo st' < todo st + sizeOf f := by
  match f with
  | .fail => exact ⟨_, _, by simp only [compileTyped]; rfl, hq, by simp only [TFormat.fail.sizeOf_spec]; omega⟩
  | .endOfInput => exact ⟨_, _, by simp only [compileTyped]; rfl, hq, by simp only [TFormat.endOfInput.sizeOf_spec]; omega⟩
  | .align _ => exact ⟨_, _, by simp only [compileTyped]; rfl, hq, by simp only [TFormat.align.sizeOf_spec]; omega⟩
  | .byte _ => exact ⟨_, _, by simp only [compileTyped]; rfl, hq, by simp only [TFormat.byte.sizeOf_spec]; omega⟩
  | .skipRemainder => exact ⟨_, _, by simp only [compileTyped]; rfl, hq, by simp only [TFormat.skipRemainder.sizeOf_spec]; omega⟩
  | .compute _ _ => exact ⟨_, _, by simp only [compileTyped]; rfl, hq, by simp only [TFormat.compute.sizeOf_spec]; omega⟩
  | .apply _ _ => exact ⟨_, _, by simp only [compileTyped]; rfl, hq, by simp only [TFormat.apply.sizeOf_spec]; omega⟩
  | .liftedNone _ => exact ⟨_, _, by simp only [compileTyped]; rfl, hq, by simp only [TFormat.liftedNone.sizeOf_spec]; omega⟩
  | .captureBytes _ _ _ => exact ⟨_, _, by simp only [compileTyped]; rfl, hq, by simp only [TFormat.captureBytes.sizeOf_spec]; omega⟩
  | .readArray _ _ _ _ => exact ⟨_, _, by simp only [compileTyped]; rfl, hq, by simp only [TFormat.readArray.sizeOf_spec]; omega⟩
  | .reifyView _ _ => exact ⟨_, _, by simp only [compileTyped]; rfl, hq, by simp only [TFormat.reifyView.sizeOf_spec]; omega⟩
  | .pos t =>
    have hu : o.numeric t = true := hu
    exact ⟨_, _, by simp only [compileTyped, hu, if_true]; rfl, hq, by simp only [TFormat.pos.sizeOf_spec]; omega⟩
  | .phantom _ _ => exact hu.elim
  | .formatCall _ level args views g =>
    obtain ⟨it, hi, he, _, _, hg⟩ := hf
    have hu : g.Usual o.numeric := hu
    simp only [TFormat.erase] at hl hc
    cases hc with | @itemVar _ _ _ it2 _ dep k h1 h2 h3 =>
    have h1 : m.items[level]? = some it2 := h1
    rw [hi] at h1
    cases h1
    have h2 : it.format.dependsOnNext m o.base = .ok dep := h2
    obtain ⟨it3, d3, h4, h5⟩ := hM _ _ _ h3
    rw [hi] at h4
    cases h4
    have hget : m.get level = .ok it := by unfold Module.get; rw [hi]; rfl
    refine ⟨_, _, by simp only [compileTyped, hget, h2, Outcome.ofPanicky, Outcome.lift, Outcome.bind_ok]; rfl, ?_⟩
    refine ⟨callIndex_ok hq ⟨hg, hu, _, _, ?_, by rw [he]; exact h5⟩, ?_⟩
    case refine_2 =>
      have := callIndex_todo (level := level) (st := st) (g := g) (x := if dep then tnext else .empty)
      simp only [TFormat.formatCall.sizeOf_spec]
      omega
    rw [he]
    rcases hl with hl | hl
    · left
      cases dep with
      | true => exact hl
      | false => exact .empty
    · right
      cases hl with | itemVar h6 h7 =>
      rw [hi] at h6
      cases h6
      exact h7
  | .decodeBytes _ e a =>
    have hfa : a.Fit m := hf
    have hua : a.Usual o.numeric := hu
    simp only [TFormat.erase] at hl hc
    cases hc with | decodeBytes hc =>
    obtain ⟨d1, s1, e1, q1, z1⟩ := compileTyped_ok hm ho ho' hM a _ st _ _ hfa hua (.inl .empty) hc hq
    exact ⟨_, _, by simp only [compileTyped, e1, Outcome.bind_ok]; rfl, q1, by simp only [TFormat.decodeBytes.sizeOf_spec]; omega⟩
  | .parseFromView _ v a =>
    have hfa : a.Fit m := hf
    have hua : a.Usual o.numeric := hu
    simp only [TFormat.erase] at hl hc
    cases hc with | parseFromView hc =>
    obtain ⟨d1, s1, e1, q1, z1⟩ := compileTyped_ok hm ho ho' hM a _ st _ _ hfa hua (.inl .empty) hc hq
    exact ⟨_, _, by simp only [compileTyped, e1, Outcome.bind_ok]; rfl, q1, by simp only [TFormat.parseFromView.sizeOf_spec]; omega⟩
  | .letView _ x a =>
    have hfa : a.Fit m := hf
    have hua : a.Usual o.numeric := hu
    simp only [TFormat.erase] at hl hc
    cases hc with | letView hc =>
    obtain ⟨d1, s1, e1, q1, z1⟩ := compileTyped_ok hm ho ho' hM a _ st _ _ hfa hua (hl.imp id fun h => by cases h with | letView h => exact h) hc hq
    exact ⟨_, _, by simp only [compileTyped, e1, Outcome.bind_ok]; rfl, q1, by simp only [TFormat.letView.sizeOf_spec]; omega⟩
  | .variant _ l a =>
    have hfa : a.Fit m := hf.2
    have hua : a.Usual o.numeric := hu
    simp only [TFormat.erase] at hl hc
    cases hc with | variant hc =>
    obtain ⟨d1, s1, e1, q1, z1⟩ := compileTyped_ok hm ho ho' hM a _ st _ _ hfa hua (hl.imp id fun h => by cases h with | variant h => exact h) hc hq
    have hnf := not_fail a hf.1
    exact ⟨_, _, by simp only [compileTyped, e1, Outcome.bind_ok, hnf, Bool.false_eq_true, if_false]; rfl, q1, by simp only [TFormat.variant.sizeOf_spec]; omega⟩
  | .repeatCount _ e a =>
    have hfa : a.Fit m := hf.2
    have hua : a.Usual o.numeric := hu
    simp only [TFormat.erase] at hl hc
    cases hc with | repeatCount hc =>
    obtain ⟨d1, s1, e1, q1, z1⟩ := compileTyped_ok hm ho ho' hM a _ st _ _ hfa hua (hl.imp (.repeat_ (.typed hfa)) fun h => by cases h with | repeatCount h => exact h) hc hq
    exact ⟨_, _, by simp only [compileTyped, e1, Outcome.bind_ok]; rfl, q1, by simp only [TFormat.repeatCount.sizeOf_spec]; omega⟩
  | .repeatUntilLast _ e a =>
    have hfa : a.Fit m := hf
    have hua : a.Usual o.numeric := hu
    simp only [TFormat.erase] at hl hc
    cases hc with | repeatUntilLast hc =>
    obtain ⟨d1, s1, e1, q1, z1⟩ := compileTyped_ok hm ho ho' hM a _ st _ _ hfa hua (hl.imp (.repeat_ (.typed hfa)) fun h => by cases h with | repeatUntilLast h => exact h) hc hq
    exact ⟨_, _, by simp only [compileTyped, e1, Outcome.bind_ok]; rfl, q1, by simp only [TFormat.repeatUntilLast.sizeOf_spec]; omega⟩
  | .forEach _ e l a =>
    have hfa : a.Fit m := hf.1
    have hua : a.Usual o.numeric := hu
    simp only [TFormat.erase] at hl hc
    cases hc with | forEach hc =>
    obtain ⟨d1, s1, e1, q1, z1⟩ := compileTyped_ok hm ho ho' hM a _ st _ _ hfa hua (hl.imp (.repeat_ (.typed hfa)) fun h => by cases h with | forEach h => exact h) hc hq
    exact ⟨_, _, by simp only [compileTyped, e1, Outcome.bind_ok]; rfl, q1, by simp only [TFormat.forEach.sizeOf_spec]; omega⟩
  | .repeatUntilSeq _ e a =>
    have hfa : a.Fit m := hf
    have hua : a.Usual o.numeric := hu
    simp only [TFormat.erase] at hl hc
    cases hc with | repeatUntilSeq hc =>
    obtain ⟨d1, s1, e1, q1, z1⟩ := compileTyped_ok hm ho ho' hM a _ st _ _ hfa hua (hl.imp (.repeat_ (.typed hfa)) fun h => by cases h with | repeatUntilSeq h => exact h) hc hq
    exact ⟨_, _, by simp only [compileTyped, e1, Outcome.bind_ok]; rfl, q1, by simp only [TFormat.repeatUntilSeq.sizeOf_spec]; omega⟩
  | .accumUntil _ _ _ _ _ a =>
    have hfa : a.Fit m := hf
    have hua : a.Usual o.numeric := hu
    simp only [TFormat.erase] at hl hc
    cases hc with | accumUntil hc =>
    obtain ⟨d1, s1, e1, q1, z1⟩ := compileTyped_ok hm ho ho' hM a _ st _ _ hfa hua (hl.imp (.repeat_ (.typed hfa)) fun h => by cases h with | accumUntil h => exact h) hc hq
    exact ⟨_, _, by simp only [compileTyped, e1, Outcome.bind_ok]; rfl, q1, by simp only [TFormat.accumUntil.sizeOf_spec]; omega⟩
  | .maybe _ e a =>
    have hfa : a.Fit m := hf.2
    have hua : a.Usual o.numeric := hu
    simp only [TFormat.erase] at hl hc
    cases hc with | maybe hc =>
    obtain ⟨d1, s1, e1, q1, z1⟩ := compileTyped_ok hm ho ho' hM a tnext st _ _ hfa hua (.inr hf.1) hc hq
    exact ⟨_, _, by simp only [compileTyped, e1, Outcome.bind_ok]; rfl, q1, by simp only [TFormat.maybe.sizeOf_spec]; omega⟩
  | .peek _ a =>
    have hfa : a.Fit m := hf
    have hua : a.Usual o.numeric := hu
    simp only [TFormat.erase] at hl hc
    cases hc with | peek hc =>
    obtain ⟨d1, s1, e1, q1, z1⟩ := compileTyped_ok hm ho ho' hM a _ st _ _ hfa hua (.inl .empty) hc hq
    exact ⟨_, _, by simp only [compileTyped, e1, Outcome.bind_ok]; rfl, q1, by simp only [TFormat.peek.sizeOf_spec]; omega⟩
  | .slice _ e a =>
    have hfa : a.Fit m := hf.2
    have hua : a.Usual o.numeric := hu
    simp only [TFormat.erase] at hl hc
    cases hc with | slice hc =>
    obtain ⟨d1, s1, e1, q1, z1⟩ := compileTyped_ok hm ho ho' hM a _ st _ _ hfa hua (.inl .empty) hc hq
    exact ⟨_, _, by simp only [compileTyped, e1, Outcome.bind_ok]; rfl, q1, by simp only [TFormat.slice.sizeOf_spec]; omega⟩
  | .bits _ a =>
    have hfa : a.Fit m := hf
    have hua : a.Usual o.numeric := hu
    simp only [TFormat.erase] at hl hc
    cases hc with | bits hc =>
    obtain ⟨d1, s1, e1, q1, z1⟩ := compileTyped_ok hm ho ho' hM a _ st _ _ hfa hua (.inl .empty) hc hq
    exact ⟨_, _, by simp only [compileTyped, e1, Outcome.bind_ok]; rfl, q1, by simp only [TFormat.bits.sizeOf_spec]; omega⟩
  | .withRelativeOffset _ _ _ a =>
    have hfa : a.Fit m := hf
    have hua : a.Usual o.numeric := hu
    simp only [TFormat.erase] at hl hc
    cases hc with | withRelativeOffset hc =>
    obtain ⟨d1, s1, e1, q1, z1⟩ := compileTyped_ok hm ho ho' hM a _ st _ _ hfa hua (.inl .empty) hc hq
    exact ⟨_, _, by simp only [compileTyped, e1, Outcome.bind_ok]; rfl, q1, by simp only [TFormat.withRelativeOffset.sizeOf_spec]; omega⟩
  | .map _ a e =>
    have hfa : a.Fit m := hf
    have hua : a.Usual o.numeric := hu
    simp only [TFormat.erase] at hl hc
    cases hc with | map hc =>
    obtain ⟨d1, s1, e1, q1, z1⟩ := compileTyped_ok hm ho ho' hM a _ st _ _ hfa hua (hl.imp id fun h => by cases h with | map h => exact h) hc hq
    exact ⟨_, _, by simp only [compileTyped, e1, Outcome.bind_ok]; rfl, q1, by simp only [TFormat.map.sizeOf_spec]; omega⟩
  | .where_ _ a e _ =>
    have hfa : a.Fit m := hf
    have hua : a.Usual o.numeric := hu
    simp only [TFormat.erase] at hl hc
    cases hc with | where_ hc =>
    obtain ⟨d1, s1, e1, q1, z1⟩ := compileTyped_ok hm ho ho' hM a _ st _ _ hfa hua (hl.imp id fun h => by cases h with | where_ h => exact h) hc hq
    exact ⟨_, _, by simp only [compileTyped, e1, Outcome.bind_ok]; rfl, q1, by simp only [TFormat.where_.sizeOf_spec]; omega⟩
  | .enforce _ a =>
    have hfa : a.Fit m := hf
    have hua : a.Usual o.numeric := hu
    simp only [TFormat.erase] at hl hc
    cases hc with | enforce hc =>
    obtain ⟨d1, s1, e1, q1, z1⟩ := compileTyped_ok hm ho ho' hM a _ st _ _ hfa hua (hl.imp id fun h => by cases h with | enforce h => exact h) hc hq
    exact ⟨_, _, by simp only [compileTyped, e1, Outcome.bind_ok]; rfl, q1, by simp only [TFormat.enforce.sizeOf_spec]; omega⟩
  | .permit _ a e =>
    have hfa : a.Fit m := hf
    have hua : a.Usual o.numeric := hu
    simp only [TFormat.erase] at hl hc
    cases hc with | permit hc =>
    obtain ⟨d1, s1, e1, q1, z1⟩ := compileTyped_ok hm ho ho' hM a _ st _ _ hfa hua (hl.imp id fun h => by cases h with | permit h => exact h) hc hq
    exact ⟨_, _, by simp only [compileTyped, e1, Outcome.bind_ok]; rfl, q1, by simp only [TFormat.permit.sizeOf_spec]; omega⟩
  | .let_ _ x e a =>
    have hfa : a.Fit m := hf
    have hua : a.Usual o.numeric := hu
    simp only [TFormat.erase] at hl hc
    cases hc with | let_ hc =>
    obtain ⟨d1, s1, e1, q1, z1⟩ := compileTyped_ok hm ho ho' hM a _ st _ _ hfa hua (hl.imp id fun h => by cases h with | let_ h => exact h) hc hq
    exact ⟨_, _, by simp only [compileTyped, e1, Outcome.bind_ok]; rfl, q1, by simp only [TFormat.let_.sizeOf_spec]; omega⟩
  | .dynamic _ _ _ _ a =>
    have hfa : a.Fit m := hf
    have hua : a.Usual o.numeric := hu
    simp only [TFormat.erase] at hl hc
    cases hc with | dynamic hc =>
    obtain ⟨d1, s1, e1, q1, z1⟩ := compileTyped_ok hm ho ho' hM a _ st _ _ hfa hua (hl.imp id fun h => by cases h with | dynamic h => exact h) hc hq
    exact ⟨_, _, by simp only [compileTyped, e1, Outcome.bind_ok]; rfl, q1, by simp only [TFormat.dynamic.sizeOf_spec]; omega⟩
  | .hint _ a =>
    have hfa : a.Fit m := hf
    have hua : a.Usual o.numeric := hu
    simp only [TFormat.erase] at hl hc
    cases hc with | hint hc =>
    obtain ⟨d1, s1, e1, q1, z1⟩ := compileTyped_ok hm ho ho' hM a _ st _ _ hfa hua (hl.imp id fun h => by cases h with | hint h => exact h) hc hq
    exact ⟨_, _, by simp only [compileTyped, e1]; rfl, q1, by simp only [TFormat.hint.sizeOf_spec]; omega⟩
  | .liftedSome _ a =>
    have hfa : a.Fit m := hf
    have hua : a.Usual o.numeric := hu
    simp only [TFormat.erase] at hl hc
    cases hc with | liftedSome hc =>
    obtain ⟨d1, s1, e1, q1, z1⟩ := compileTyped_ok hm ho ho' hM a _ st _ _ hfa hua (hl.imp id fun h => by cases h with | liftedSome h => exact h) hc hq
    exact ⟨_, _, by simp only [compileTyped, e1, Outcome.bind_ok]; rfl, q1, by simp only [TFormat.liftedSome.sizeOf_spec]; omega⟩
  | .peekNot _ a =>
    have hfa : a.Fit m := hf
    obtain ⟨ha, hua⟩ := hu
    simp only [TFormat.erase] at hl hc
    cases hc with | peekNot hs hc =>
    obtain ⟨b, hb, hok⟩ := short_to hfa ha hs
    obtain ⟨d1, s1, e1, q1, z1⟩ := compileTyped_ok hm ho ho' hM a _ st _ _ hfa hua (.inl .empty) hc hq
    exact ⟨_, _, by simp only [compileTyped, hb, Outcome.ofPanicky, Outcome.bind_ok, hok, if_true, e1]; rfl, q1, by simp only [TFormat.peekNot.sizeOf_spec]; omega⟩
  | .union _ fs =>
    have hfs : TFormat.FitList m fs := hf
    have hus : TFormat.UsualList o.numeric fs := hu
    simp only [TFormat.erase] at hl hc
    cases hc with | union hc ht =>
    have hl : NRel m next tnext := hl.elim id fun h => nomatch h
    obtain ⟨d1, s1, e1, q1, z1⟩ := compileTypedAll_ok hm ho ho' hM fs tnext st _ _ hfs hus (.inl hl) hc hq
    obtain ⟨t, ht⟩ := tree_to hm ho ho' (fit_bytesList fs hfs) hl ht
    exact ⟨_, _, by simp only [compileTyped, e1, ht, Outcome.bind_ok]; rfl, q1, by simp only [TFormat.union.sizeOf_spec]; omega⟩
  | .unionNondet _ fs =>
    have hfs : TFormat.FitList m fs := hf
    have hus : TFormat.UsualList o.numeric fs := hu
    simp only [TFormat.erase] at hl hc
    cases hc with | unionNondet hc =>
    obtain ⟨d1, s1, e1, q1, z1⟩ := compileTypedAll_ok hm ho ho' hM fs tnext st _ _ hfs hus (hl.imp id fun h => by cases h with | unionNondet h => exact h) hc hq
    exact ⟨_, _, by simp only [compileTyped, e1, Outcome.bind_ok]; rfl, q1, by simp only [TFormat.unionNondet.sizeOf_spec]; omega⟩
  | .tuple _ fs =>
    have hfs : TFormat.FitList m fs := hf
    have hus : TFormat.UsualList o.numeric fs := hu
    simp only [TFormat.erase] at hl hc
    cases hc with | tuple hc =>
    obtain ⟨d1, s1, e1, q1, z1⟩ := compileTypedFields_ok hm ho ho' hM fs tnext st _ _ hfs hus (hl.imp id fun h => by cases h with | tuple h => exact h) hc hq
    exact ⟨_, _, by simp only [compileTyped, e1, Outcome.bind_ok]; rfl, q1, by simp only [TFormat.tuple.sizeOf_spec]; omega⟩
  | .sequence _ fs =>
    have hfs : TFormat.FitList m fs := hf
    have hus : TFormat.UsualList o.numeric fs := hu
    simp only [TFormat.erase] at hl hc
    cases hc with | sequence hc =>
    obtain ⟨d1, s1, e1, q1, z1⟩ := compileTypedFields_ok hm ho ho' hM fs tnext st _ _ hfs hus (hl.imp id fun h => by cases h with | sequence h => exact h) hc hq
    exact ⟨_, _, by simp only [compileTyped, e1, Outcome.bind_ok]; rfl, q1, by simp only [TFormat.sequence.sizeOf_spec]; omega⟩
  | .match_ _ e fs =>
    have hfs : TFormat.FitBranches m fs := hf
    have hus : TFormat.UsualBranches o.numeric fs := hu
    simp only [TFormat.erase] at hl hc
    cases hc with | match_ hc =>
    obtain ⟨d1, s1, e1, q1, z1⟩ := compileTypedBranches_ok hm ho ho' hM fs tnext st _ _ hfs hus (hl.imp id fun h => by cases h with | match_ h => exact h) hc hq
    exact ⟨_, _, by simp only [compileTyped, e1, Outcome.bind_ok]; rfl, q1, by simp only [TFormat.match_.sizeOf_spec]; omega⟩
  | .repeat_ _ a =>
    have hfa : a.Fit m := hf
    have hua : a.Usual o.numeric := hu
    simp only [TFormat.erase] at hl hc
    cases hc with | repeat_ hn hc ht =>
    have hl : NRel m next tnext := hl.elim id fun h => nomatch h
    have hb := fit_bytes a hfa
    have he : Format.EachOf Format.BytesHere [.tuple [a.erase, .repeat_ a.erase], Format.EMPTY] :=
      ⟨⟨trivial, hb, ⟨trivial, hb⟩, trivial⟩, ⟨trivial, trivial⟩, trivial⟩
    obtain ⟨t, ht⟩ := tree_to hm ho ho' he hl ht
    have hn := nonNull hfa hn
    obtain ⟨d1, s1, e1, q1, z1⟩ := compileTyped_ok hm ho ho' hM a _ st _ _ hfa hua (.inl (.repeat_ (.typed hfa) hl)) hc hq
    exact ⟨_, _, by simp only [compileTyped, hn, Outcome.ofPanicky, e1, ht, Outcome.bind_ok, Bool.false_eq_true, if_false]; rfl, q1, by simp only [TFormat.repeat_.sizeOf_spec]; omega⟩
  | .repeat1 _ a =>
    have hfa : a.Fit m := hf
    have hua : a.Usual o.numeric := hu
    simp only [TFormat.erase] at hl hc
    cases hc with | repeat1 hn hc ht =>
    have hl : NRel m next tnext := hl.elim id fun h => nomatch h
    have hb := fit_bytes a hfa
    have he : Format.EachOf Format.BytesHere [Format.EMPTY, .tuple [a.erase, .repeat_ a.erase]] :=
      ⟨⟨trivial, trivial⟩, ⟨trivial, hb, ⟨trivial, hb⟩, trivial⟩, trivial⟩
    obtain ⟨t, ht⟩ := tree_to hm ho ho' he hl ht
    have hn := nonNull hfa hn
    obtain ⟨d1, s1, e1, q1, z1⟩ := compileTyped_ok hm ho ho' hM a _ st _ _ hfa hua (.inl (.repeat_ (.typed hfa) hl)) hc hq
    exact ⟨_, _, by simp only [compileTyped, hn, Outcome.ofPanicky, e1, ht, Outcome.bind_ok, Bool.false_eq_true, if_false]; rfl, q1, by simp only [TFormat.repeat1.sizeOf_spec]; omega⟩
  | .repeatBetween _ x y a =>
    obtain ⟨hx, hy, hfa⟩ := hf
    have hua : a.Usual o.numeric := hu
    simp only [TFormat.erase] at hl hc
    cases hc with | @repeatBetween _ _ _ min max _ _ _ h3 h4 hc ht =>
    obtain ⟨b, hb1, hb2⟩ := h3
    obtain ⟨c, hc1, hc2⟩ := h4
    obtain ⟨b', hb3, hb4, _⟩ := hx
    obtain ⟨c', hc3, hc4, _⟩ := hy
    rw [hb1] at hb3; cases hb3
    rw [hc1] at hc3; cases hc3
    rw [hb4] at hb2
    rw [hc4] at hc2
    have hl : NRel m next tnext := hl.elim id fun h => nomatch h
    have hb := fit_bytes a hfa
    have he : Format.EachOf Format.BytesHere (Compiler.countFormats a.erase max) :=
      eachOf_map (P := Format.BytesHere) (fun count => .repeatCount (.lit .b32 (Fin.ofNat _ count)) a.erase)
        (fun _ => ⟨trivial, hb⟩) _
    obtain ⟨t, ht⟩ := tree_to hm ho ho' he hl ht
    obtain ⟨d1, s1, e1, q1, z1⟩ := compileTyped_ok hm ho ho' hM a _ st _ _ hfa hua
      (.inl (.repeatBetween (.typed hfa) hl)) hc hq
    exact ⟨_, _, by simp only [compileTyped, hb2, hc2, Panicky.unwrap, Outcome.ofPanicky, e1, ht, Outcome.bind_ok]; rfl, q1, by simp only [TFormat.repeatBetween.sizeOf_spec]; omega⟩
  | .letFormat _ a x b =>
    obtain ⟨hfa, hfb⟩ := hf
    obtain ⟨hua, hub⟩ := hu
    simp only [TFormat.erase] at hl hc
    cases hc with | letFormat hc1 hc2 =>
    obtain ⟨d1, s1, e1, q1, z1⟩ := compileTyped_ok hm ho ho' hM a _ st _ _ hfa hua
      (hl.imp (.cat (.typed hfb)) fun h => by cases h with | letFormat h _ => exact h) hc1 hq
    obtain ⟨d2, s2, e2, q2, z2⟩ := compileTyped_ok hm ho ho' hM b _ s1 _ _ hfb hub
      (hl.imp id fun h => by cases h with | letFormat _ h => exact h) hc2 q1
    exact ⟨_, _, by simp only [compileTyped, e1, e2, Outcome.bind_ok]; rfl, q2, by simp only [TFormat.letFormat.sizeOf_spec]; omega⟩
  | .monadSeq _ a b =>
    obtain ⟨hfa, hfb⟩ := hf
    obtain ⟨hua, hub⟩ := hu
    simp only [TFormat.erase] at hl hc
    cases hc with | monadSeq hc1 hc2 =>
    obtain ⟨d1, s1, e1, q1, z1⟩ := compileTyped_ok hm ho ho' hM a _ st _ _ hfa hua
      (hl.imp (.cat (.typed hfb)) fun h => by cases h with | monadSeq h _ => exact h) hc1 hq
    obtain ⟨d2, s2, e2, q2, z2⟩ := compileTyped_ok hm ho ho' hM b _ s1 _ _ hfb hub
      (hl.imp id fun h => by cases h with | monadSeq _ h => exact h) hc2 q1
    exact ⟨_, _, by simp only [compileTyped, e1, e2, Outcome.bind_ok]; rfl, q2, by simp only [TFormat.monadSeq.sizeOf_spec]; omega⟩

theorem compileTypedAll_ok [DecidableEq (TNext τ)] {m : Module} {o : TOpts τ} (hm : m.BytesOk)
    (ho : o.base.ord.Valid) (ho' : o.ord.Valid) {M : List ((Nat × Next) × Nat)} (hM : Table m o.base M)
    (fs : List (TFormat τ)) (tnext : TNext τ) (st : TCompSt τ) (next : Next) (ds : List Decoder)
    (hf : TFormat.FitList m fs) (hu : TFormat.UsualList o.numeric fs)
    (hl : NRel m next tnext ∨ ∀ f ∈ TFormat.eraseList fs, f.NextFree m)
    (hc : CompilesAll (.of m o.base M) (TFormat.eraseList fs) next ds) (hq : QOk m o M st) :
    ∃ ds' st', compileTypedAll m o fs tnext st = .ok (ds', st') ∧ QOk m o M st' ∧ todo st' < todo st + sizeOf fs := by
  match fs with
  | [] => exact ⟨_, _, by simp only [compileTypedAll]; rfl, hq, by simp only [List.nil.sizeOf_spec]; omega⟩
  | f :: fs =>
    simp only [TFormat.eraseList] at hl hc
    cases hc with | acons hc1 hc2 =>
    obtain ⟨d1, s1, e1, q1, z1⟩ := compileTyped_ok hm ho ho' hM f _ st _ _ hf.1 hu.1 (hl.imp id fun h => h _ List.mem_cons_self) hc1 hq
    obtain ⟨d2, s2, e2, q2, z2⟩ := compileTypedAll_ok hm ho ho' hM fs _ s1 _ _ hf.2 hu.2
      (hl.imp id fun h f hf => h f (List.mem_cons_of_mem _ hf)) hc2 q1
    exact ⟨_, _, by simp only [compileTypedAll, e1, e2, Outcome.bind_ok]; rfl, q2, by simp only [List.cons.sizeOf_spec]; omega⟩

theorem compileTypedFields_ok [DecidableEq (TNext τ)] {m : Module} {o : TOpts τ} (hm : m.BytesOk)
    (ho : o.base.ord.Valid) (ho' : o.ord.Valid) {M : List ((Nat × Next) × Nat)} (hM : Table m o.base M)
    (fs : List (TFormat τ)) (tnext : TNext τ) (st : TCompSt τ) (next : Next) (ds : List Decoder)
    (hf : TFormat.FitList m fs) (hu : TFormat.UsualList o.numeric fs)
    (hl : NRel m next tnext ∨ ∀ f ∈ TFormat.eraseList fs, f.NextFree m)
    (hc : CompilesFields (.of m o.base M) (TFormat.eraseList fs) next ds) (hq : QOk m o M st) :
    ∃ ds' st', compileTypedFields m o fs tnext st = .ok (ds', st') ∧ QOk m o M st' ∧ todo st' < todo st + sizeOf fs := by
  match fs with
  | [] => exact ⟨_, _, by simp only [compileTypedFields]; rfl, hq, by simp only [List.nil.sizeOf_spec]; omega⟩
  | f :: fs =>
    simp only [TFormat.eraseList] at hl hc
    cases hc with | fcons hc1 hc2 =>
    obtain ⟨d1, s1, e1, q1, z1⟩ := compileTyped_ok hm ho ho' hM f _ st _ _ hf.1 hu.1 (hl.imp (.sequence (.typed hf.2)) fun h => h _ List.mem_cons_self) hc1 hq
    obtain ⟨d2, s2, e2, q2, z2⟩ := compileTypedFields_ok hm ho ho' hM fs _ s1 _ _ hf.2 hu.2
      (hl.imp id fun h f hf => h f (List.mem_cons_of_mem _ hf)) hc2 q1
    exact ⟨_, _, by simp only [compileTypedFields, e1, e2, Outcome.bind_ok]; rfl, q2, by simp only [List.cons.sizeOf_spec]; omega⟩

theorem compileTypedBranches_ok [DecidableEq (TNext τ)] {m : Module} {o : TOpts τ} (hm : m.BytesOk)
    (ho : o.base.ord.Valid) (ho' : o.ord.Valid) {M : List ((Nat × Next) × Nat)} (hM : Table m o.base M)
    (fs : List (Pattern × TFormat τ)) (tnext : TNext τ) (st : TCompSt τ) (next : Next) (ds : List (Pattern × Decoder))
    (hf : TFormat.FitBranches m fs) (hu : TFormat.UsualBranches o.numeric fs)
    (hl : NRel m next tnext ∨ ∀ p ∈ TFormat.eraseBranches fs, p.2.NextFree m)
    (hc : CompilesBranches (.of m o.base M) (TFormat.eraseBranches fs) next ds) (hq : QOk m o M st) :
    ∃ ds' st', compileTypedBranches m o fs tnext st = .ok (ds', st') ∧ QOk m o M st' ∧ todo st' < todo st + sizeOf fs := by
  match fs with
  | [] => exact ⟨_, _, by simp only [compileTypedBranches]; rfl, hq, by simp only [List.nil.sizeOf_spec]; omega⟩
  | (p, f) :: fs =>
    simp only [TFormat.eraseBranches] at hl hc
    cases hc with | bcons hc1 hc2 =>
    obtain ⟨d1, s1, e1, q1, z1⟩ := compileTyped_ok hm ho ho' hM f _ st _ _ hf.1 hu.1 (hl.imp id fun h => h (p, f.erase) List.mem_cons_self) hc1 hq
    obtain ⟨d2, s2, e2, q2, z2⟩ := compileTypedBranches_ok hm ho ho' hM fs _ s1 _ _ hf.2 hu.2
      (hl.imp id fun h f hf => h f (List.mem_cons_of_mem _ hf)) hc2 q1
    exact ⟨_, _, by simp only [compileTypedBranches, e1, e2, Outcome.bind_ok]; rfl, q2, by simp only [List.cons.sizeOf_spec, Prod.mk.sizeOf_spec]; omega⟩
end

theorem drain_ok [DecidableEq (TNext τ)] {m : Module} {o : TOpts τ} (hm : m.BytesOk) (ho : o.base.ord.Valid)
    (ho' : o.ord.Valid) {M : List ((Nat × Next) × Nat)} (hM : Table m o.base M) : ∀ (fuel : Nat) (st : TCompSt τ),
    QOk m o M st → todo st < fuel → ∃ st', drain m o fuel st = .ok st'
  | 0, _, _, h => by omega
  | fuel + 1, st, hq, hz => by
    unfold drain
    cases hs : st.queue with
    | nil => exact ⟨_, rfl⟩
    | cons e rest =>
      obtain ⟨f, next, k⟩ := e
      dsimp only
      obtain ⟨hf, hu, nx, d, hl, hc⟩ := hq (f, next, k) (by rw [hs]; exact List.mem_cons_self)
      have hq' : QOk m o M { st with queue := rest } := fun e he => hq e (by rw [hs]; exact List.mem_cons_of_mem _ he)
      obtain ⟨d1, s1, e1, q1, z1⟩ := compileTyped_ok hm ho ho' hM f next _ nx d hf hu hl hc hq'
      rw [e1]
      simp only [Outcome.bind_ok]
      refine drain_ok hm ho ho' hM fuel _ q1 ?_
      have : todo st = sizeOf f + todo { st with queue := rest } := by
        simp only [todo, hs, List.map_cons, List.sum_cons]
      show todo s1 < fuel
      omega

/-- The code generator's compiler ends with a program. -/
theorem accepts_ok [DecidableEq Next] [DecidableEq (TNext τ)] {m : Module} {o : TOpts τ} (hm : m.BytesOk)
    (ho : o.base.ord.Valid) (ho' : o.ord.Valid) {fuel : Nat} {f : TFormat τ} (hf : f.Fit m)
    (hu : f.Usual o.numeric) (hfail : f.erase ≠ .fail) {prog : List Decoder}
    (h : Compiler.compileProgram m o.base fuel f.erase = .ok prog) :
    ∃ bound, ∀ fuel', bound ≤ fuel' → ∃ prog', compileProgram m o fuel' f [] = .ok prog' := by
  obtain ⟨M, ⟨d, _, hc⟩, hM⟩ := Compiler.compileProgram_spec m o.base fuel f.erase prog h
  have hM' : Table m o.base M := by
    intro level nx k hk
    obtain ⟨it, d, h1, _, h2⟩ := hM level nx k hk
    exact ⟨it, d, h1, h2⟩
  have hq : QOk m o M (queueCompile (new : TCompSt τ) f .empty).2 := by
    intro e he
    simp only [queueCompile, new, List.mem_singleton] at he
    subst he
    exact ⟨hf, hu, _, _, .inl .empty, hc⟩
  refine ⟨todo (queueCompile (new : TCompSt τ) f .empty).2 + 1, fun fuel' hfuel => ?_⟩
  have hroot : compileRoot m o fuel' f (new : TCompSt τ) = drain m o fuel' (queueCompile new f .empty).2 := by
    cases f <;> first | rfl | exact absurd rfl hfail
  obtain ⟨st', h⟩ := drain_ok hm ho ho' hM' fuel' _ hq (by omega)
  simp only [compileProgram, compileRoots, hroot, h]
  exact ⟨_, rfl⟩

end TCompiler
end Doodle
