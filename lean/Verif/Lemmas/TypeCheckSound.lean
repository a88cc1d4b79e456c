import Verif.Lemmas.TypeCheckExpr

/-! The values of an expression have the type that the type checker finds. -/

namespace Doodle
namespace Tc

open Num (MachineRep BitWidth NumRep)

variable {o : Orders} {n : Nat} {δ : Type}

theorem single_bool {b : BaseType} (h : (BaseSet.single .bool).contains b = .ok true) : b = .bool := by
  simp only [BaseSet.contains, Panicky.ok.injEq, decide_eq_true_eq] at h
  exact h.symm

theorem any_uint {s : UintSet} {b : BaseType} (h : (BaseSet.u s).contains b = .ok true) : ∃ w, b = .num w :=
  contains_uint h

theorem arith_num {K : Slack} {op : Arith} (h1 : op ≠ .boolAnd) (h2 : op ≠ .boolOr) {l r v : Value} {w : BitWidth}
    (hl : l.HasType K (.base (.num w))) (h : Value.arith op l r = .ok v) : v.HasType K (.base (.num w)) := by
  have num : ∀ k (m : Fin k.card), l = .num k m → ∀ n, Value.mkNum k n = .ok v → v.HasType K (.base (.num w)) := by
    intro k m e n hn
    subst e
    exact Value.hasType_mkNum_of hl (ValueType.Le.refl .base) hn
  cases op <;> first | exact absurd rfl h1 | exact absurd rfl h2 | skip
  all_goals
    simp only [Value.arith] at h
    split at h
    · split at h
      · obtain ⟨n, hn⟩ := Value.arithNum_kind h
        exact num _ _ rfl n hn
      · simp only [reduceCtorEq] at h
    · simp only [reduceCtorEq] at h

theorem arith_bool {K : Slack} {op : Arith} (h1 : op = .boolAnd ∨ op = .boolOr) {l r v : Value}
    (h : Value.arith op l r = .ok v) : v.HasType K (.base .bool) := by
  rcases h1 with rfl | rfl <;> simp only [Value.arith] at h <;> split at h <;>
    simp only [reduceCtorEq, Panicky.ok.injEq] at h <;> subst h <;> simp only [Value.HasType]

theorem unary_num {K : Slack} {op : UnaryOp} (h1 : op ≠ .boolNot) {x v : Value} {w : BitWidth}
    (hl : x.HasType K (.base (.num w))) (h : Value.unary op x = .ok v) : v.HasType K (.base (.num w)) := by
  refine Value.unary_sound (t0 := .base (.num w)) .base ?_ hl h
  cases op <;> first | exact absurd rfl h1 | rfl

theorem unary_bool {K : Slack} {x v : Value} (h : Value.unary .boolNot x = .ok v) : v.HasType K (.base .bool) := by
  simp only [Value.unary] at h
  split at h <;> simp only [reduceCtorEq, Panicky.ok.injEq] at h
  subst h; simp only [Value.HasType]

theorem get_find {α : Type} {l : String} : ∀ {m : List (String × α)},
    (m.find? (fun f => l == f.1)).map (·.2) = TMap.get l m
  | [] => rfl
  | (k, x) :: m => by
    simp only [List.find?_cons, TMap.get]
    by_cases h : l = k
    · simp [h]
    · rw [if_neg h, ← get_find (m := m)]
      have : (l == k) = false := by simpa using h
      rw [this]

theorem yields_utypeBaseset (ho : o.Lists) {v : Nat} {bs : BaseSet} :
    Yields (unifyUtypeBaseset o n (.var v) bs) (fun _ => True) (fun _ _ => True) := by
  unfold unifyUtypeBaseset
  simp only [unifyUtypeBasesetWith]
  exact ((yields_varC ho (baseset_toConstraint_ok bs)).bind fun _ _ => yields_ret).to fun _ _ _ => trivial

theorem firm_bytes (k : Nat) : (UType.bytes k).Firm := by
  unfold UType.bytes
  simp only [UType.Firm]
  induction k with
  | zero => simp only [List.replicate_zero]; trivial
  | succ k ih => rw [List.replicate_succ]; exact ⟨trivial, ih⟩

/-- what inference establishes about a function: arguments of one type give results of the other -/
def LamSound (δ : Type) (K : Slack) (σ : Assignment) (sc : UScope) (f : Expr) (A B : ValueType) : Prop :=
  ∀ (s : Scope δ) a r, sc.Agrees K σ s → a.HasType K A → f.evalLambda s a = .ok r → r.HasType K B

set_option maxHeartbeats 4000000 in
mutual
theorem yields_expr (ho : o.Lists) {K : Slack} (hf : K.fallbacks ≠ .typed) : ∀ (e : Expr) (sc : UScope), e.Solid →
    Yields (inferExpr o n e sc) (fun _ => True) (fun v σ => e.Exact K → SoundAt δ K σ sc e (σ v))
  | .var name, sc, hs => by
    simp only [inferExpr]
    cases hsc : sc.get name with
    | none => exact (yields_newVar.bind fun v _ => yields_panic (P := fun _ _ => False)).to fun _ _ ⟨_, _, h⟩ => h.elim
    | some w =>
      refine (yields_newVar.bind fun v _ => (yields_pair ho).bind fun _ _ => yields_ret).to ?_
      rintro _ σ ⟨v, _, _, hv, rfl⟩ _ s x ha he
      unfold Expr.eval at he
      cases hx : s.getValue name with
      | none => rw [hx] at he; simp only [Panicky.unwrap, reduceCtorEq] at he
      | some y =>
        rw [hx] at he
        simp only [Panicky.unwrap, Panicky.ok.injEq] at he
        subst he
        rw [← hv]
        exact ha name w y hsc hx
  | .bool b, sc, hs => by
    simp only [inferExpr]
    refine (yields_init ho (t := .base .bool) trivial id).to ?_
    rintro v σ hv _ s x ha he
    simp only [Expr.eval, Panicky.ok.injEq] at he
    subst he; rw [hv]; simp only [Value.HasType, UType.inst]
  | .lit w m, sc, hs => by
    simp only [inferExpr]
    refine (yields_init ho (t := .base (.num w)) trivial id).to ?_
    rintro v σ hv _ s x ha he
    simp only [Expr.eval, Panicky.ok.injEq] at he
    subst he; rw [hv]; simp only [Value.HasType, UType.inst]
  | .numeric e, sc, hs => by
    simp only [inferExpr]
    refine (yields_newVar.bind fun v _ => (yields_num (δ := δ) (K := K) ho sc e).bind fun r _ =>
      (yields_pair ho).bind fun _ _ => yields_ret).to ?_
    rintro _ σ ⟨v, _, r, hr, _, hv, rfl⟩ hx s x ha he
    simp only [Expr.Exact] at hx
    simp only [Expr.eval] at he
    unfold Expr.numericResult at he
    split at he <;> simp only [reduceCtorEq, Panicky.ok.injEq] at he
    rename_i c hc
    subst he
    rw [hv]
    exact Num.fits_hasType (hr.2.2 hx.2 s c ha hc) hx.1
  | .tuple es, sc, hs => by
    simp only [Expr.Solid] at hs
    simp only [inferExpr]
    refine (yields_newVar.bind fun v _ => (yields_exprs ho hf es sc hs).bind fun ts hts =>
      (yields_varU ho (t := .tuple ts) hts).bind fun _ _ => yields_ret).to ?_
    rintro _ σ ⟨v, _, ts, hts, _, hv, rfl⟩ hx s x ha he
    simp only [Expr.Exact] at hx
    simp only [Expr.eval] at he
    obtain ⟨vs, hvs, he⟩ := Panicky.bind_eq_ok.mp he
    simp only [Panicky.ok.injEq] at he
    subst he
    rw [hv]
    simp only [Value.HasType, UType.inst]
    exact ⟨_, rfl, hts hx s vs ha hvs⟩
  | .tupleProj e i, sc, hs => by
    simp only [Expr.Solid] at hs
    simp only [inferExpr]
    refine (yields_newVar.bind fun v _ => (yields_expr ho hf e sc hs).bind fun w _ =>
      (yields_index ho).bind fun _ _ => yields_ret).to ?_
    rintro _ σ ⟨v, _, w, hw, _, ⟨Us, h1, h2⟩, rfl⟩ hx s x ha he
    simp only [Expr.Exact] at hx
    simp only [Expr.eval] at he
    obtain ⟨y, hy, he⟩ := Panicky.bind_eq_ok.mp he
    have := hw hx s y ha hy
    rw [h1] at this
    exact Value.HasType.tupleProj hf this.coerceMapped h2 he
  | .record fs, sc, hs => by
    simp only [Expr.Solid] at hs
    simp only [inferExpr]
    refine (yields_newVar.bind fun v _ => (yields_fields ho hf fs sc hs).bind fun ts hts =>
      (yields_varU ho (t := .record ts) hts).bind fun _ _ => yields_ret).to ?_
    rintro _ σ ⟨v, _, ts, hts, _, hv, rfl⟩ hx s x ha he
    simp only [Expr.Exact] at hx
    simp only [Expr.eval] at he
    obtain ⟨vs, hvs, he⟩ := Panicky.bind_eq_ok.mp he
    simp only [Panicky.ok.injEq] at he
    subst he
    rw [hv]
    simp only [Value.HasType, UType.inst]
    exact ⟨_, rfl, hts hx s vs ha hvs⟩
  | .recordProj e l, sc, hs => by
    simp only [Expr.Solid] at hs
    simp only [inferExpr]
    refine (yields_newVar.bind fun v _ => (yields_expr ho hf e sc hs).bind fun w _ =>
      (yields_field ho).bind fun _ _ => yields_ret).to ?_
    rintro _ σ ⟨v, _, w, hw, _, ⟨Us, h1, h2⟩, rfl⟩ hx s x ha he
    simp only [Expr.Exact] at hx
    simp only [Expr.eval] at he
    obtain ⟨y, hy, he⟩ := Panicky.bind_eq_ok.mp he
    have := hw hx s y ha hy
    rw [h1] at this
    exact Value.HasType.recordProj hf this.coerceMapped (get_find.trans h2) he
  | .variant l e, sc, hs => by
    simp only [Expr.Solid] at hs
    simp only [inferExpr]
    refine (yields_newVar.bind fun v _ => (yields_expr ho hf e sc hs).bind fun w _ =>
      (yields_variant ho (t := .var w) trivial).bind fun _ _ => yields_ret).to ?_
    rintro _ σ ⟨v, _, w, hw, _, ⟨bs, U, h1, h2, rfl⟩, rfl⟩ hx s x ha he
    simp only [Expr.Exact] at hx
    simp only [Expr.eval] at he
    obtain ⟨y, hy, he⟩ := Panicky.bind_eq_ok.mp he
    simp only [Panicky.ok.injEq] at he
    subst he
    rw [h1]
    simp only [Value.HasType]
    exact ⟨_, _, rfl, h2, (hw hx s y ha hy).coerceMapped⟩
  | .seq es, sc, hs => by
    simp only [Expr.Solid] at hs
    simp only [inferExpr]
    refine (yields_newVar.bind fun v _ => yields_newVar.bind fun e _ => (yields_seqElems ho hf es e sc hs).bind fun _ _ =>
      (yields_varU ho (t := .seq (.var e) _) trivial).bind fun _ _ => yields_ret).to ?_
    rintro _ σ ⟨v, _, e, _, _, hes, _, hv, rfl⟩ hx s x ha he
    simp only [Expr.Exact] at hx
    simp only [Expr.eval] at he
    obtain ⟨vs, hvs, he⟩ := Panicky.bind_eq_ok.mp he
    simp only [Panicky.ok.injEq] at he
    subst he
    rw [hv]
    exact Value.hasType_seq.mpr ⟨_, rfl, hes hx s vs ha hvs⟩
  | .match_ head bs, sc, hs => by
    simp only [Expr.Solid] at hs
    simp only [inferExpr]
    refine (yields_newVar.bind fun v _ => (yields_expr ho hf head sc hs.1).bind fun h _ =>
      (yields_branches ho hf bs h v sc hs.2).bind fun _ _ => yields_ret).to ?_
    rintro _ σ ⟨v, _, h, hh, _, hbs, rfl⟩ hx s x ha he
    simp only [Expr.Exact] at hx
    simp only [Expr.eval] at he
    obtain ⟨y, hy, he⟩ := Panicky.bind_eq_ok.mp he
    exact hbs hx.2 s y x ha (hh hx.1 s y ha hy) he
  | .destructure head p e, sc, hs => by
    simp only [Expr.Solid] at hs
    simp only [inferExpr]
    refine (yields_newVar.bind fun v _ => (yields_expr ho hf head sc hs.1).bind fun h _ =>
      (yields_pattern ho (K := K) p sc).bind fun r _ => (yields_expr ho hf e r.2 hs.2).bind fun w _ =>
      (yields_varU ho (t := .var h) trivial).bind fun _ _ => (yields_pair ho).bind fun _ _ => yields_ret).to ?_
    rintro _ σ ⟨v, _, h, hh, r, hr, w, hw, _, hp, _, hv, rfl⟩ hx s x ha he
    simp only [Expr.Exact] at hx
    simp only [Expr.eval] at he
    obtain ⟨y, hy, he⟩ := Panicky.bind_eq_ok.mp he
    split at he
    · rename_i bs hbs
      obtain ⟨z, hz, he⟩ := Panicky.bind_eq_ok.mp he
      simp only [Panicky.ok.injEq] at he
      subst he
      rw [hv]
      refine (hw hx.2 _ z (hr.agrees hbs ?_ ha) hz).coerceMapped
      rw [hp]; exact hh hx.1 s y ha hy
    · simp only [reduceCtorEq] at he
  | .lambda _ _, sc, hs => by
    simp only [inferExpr]
    exact yields_panic
  | .intRel r x y, sc, hs => by
    simp only [Expr.Solid] at hs
    simp only [inferExpr]
    refine (yields_newVar.bind fun z _ => (yields_expr ho hf x sc hs.1).bind fun a _ => (yields_baseset ho).bind fun _ _ =>
      (yields_expr ho hf y sc hs.2).bind fun b _ => (yields_baseset ho).bind fun _ _ => (yields_pair ho).bind fun _ _ =>
      (yields_varC ho (c := .elem (.single .bool)) trivial).bind fun _ _ => yields_ret).to ?_
    rintro _ σ ⟨z, _, a, _, _, _, b, _, _, _, _, _, _, ⟨t, hz, ht⟩, rfl⟩ hx s v ha he
    rw [hz, single_bool ht]
    simp only [Expr.eval] at he
    obtain ⟨_, _, he⟩ := Panicky.bind_eq_ok.mp he
    obtain ⟨_, _, he⟩ := Panicky.bind_eq_ok.mp he
    exact Value.intRel_sound he
  | .arith op x y, sc, hs => by
    simp only [Expr.Solid] at hs
    by_cases hop : op = .boolAnd ∨ op = .boolOr
    · have : Yields (inferExpr o n (.arith op x y) sc) (fun _ => True) (fun v σ => σ v = .base .bool) := by
        rcases hop with rfl | rfl <;> simp only [inferExpr] <;>
        · refine (yields_newVar.bind fun z _ => (yields_expr ho hf x sc hs.1).bind fun a _ =>
            (yields_baseset ho).bind fun _ _ => (yields_expr ho hf y sc hs.2).bind fun b _ =>
            (yields_baseset ho).bind fun _ _ => (yields_baseset ho).bind fun _ _ => yields_ret).to ?_
          rintro _ σ ⟨z, _, a, _, _, _, b, _, _, _, _, ⟨t, hz, ht⟩, rfl⟩
          rw [hz, single_bool ht]
      refine this.to ?_
      rintro z σ hz _ s v ha he
      rw [hz]
      simp only [Expr.eval] at he
      obtain ⟨_, _, he⟩ := Panicky.bind_eq_ok.mp he
      obtain ⟨_, _, he⟩ := Panicky.bind_eq_ok.mp he
      exact arith_bool hop he
    · have : Yields (inferExpr o n (.arith op x y) sc) (fun _ => True) (fun v σ => ∃ a w, σ v = .base (.num w) ∧
          (x.Exact K → SoundAt δ K σ sc x (σ a)) ∧ σ v = σ a) := by
        cases op <;> first | exact absurd (Or.inl rfl) hop | exact absurd (Or.inr rfl) hop | skip
        all_goals
          simp only [inferExpr]
          refine (yields_newVar.bind fun z _ => (yields_expr ho hf x sc hs.1).bind fun a _ =>
            (yields_baseset ho).bind fun _ _ => (yields_expr ho hf y sc hs.2).bind fun b _ =>
            (yields_baseset ho).bind fun _ _ => (yields_pair ho).bind fun _ _ => (yields_pair ho).bind fun _ _ => yields_ret).to ?_
          rintro _ σ ⟨z, _, a, hx, _, ⟨t, ht, hc⟩, b, _, _, _, _, h1, _, _, rfl⟩
          obtain ⟨w, rfl⟩ := any_uint hc
          exact ⟨a, w, h1.trans ht, hx, h1⟩
      refine this.to ?_
      rintro z σ ⟨a, w, hw, hx, hz⟩ hex s v ha he
      simp only [Expr.Exact] at hex
      simp only [Expr.eval] at he
      obtain ⟨l, hl, he⟩ := Panicky.bind_eq_ok.mp he
      obtain ⟨_, _, he⟩ := Panicky.bind_eq_ok.mp he
      have hl := (hx (by
        rcases hex with h | h | h
        · exact absurd (Or.inl h) hop
        · exact absurd (Or.inr h) hop
        · exact h) s l ha hl).coerceMapped
      rw [← hz, hw] at hl
      rw [hw]
      exact arith_num (fun h => hop (Or.inl h)) (fun h => hop (Or.inr h)) hl he
  | .unary op x, sc, hs => by
    simp only [Expr.Solid] at hs
    by_cases hop : op = .boolNot
    · subst hop
      simp only [inferExpr]
      refine (yields_newVar.bind fun z _ => (yields_expr ho hf x sc hs).bind fun a _ =>
        (yields_baseset ho).bind fun _ _ => (yields_baseset ho).bind fun _ _ => yields_ret).to ?_
      rintro _ σ ⟨z, _, a, _, _, _, _, ⟨t, hz, ht⟩, rfl⟩ _ s v ha he
      rw [hz, single_bool ht]
      simp only [Expr.eval] at he
      obtain ⟨_, _, he⟩ := Panicky.bind_eq_ok.mp he
      exact unary_bool he
    · have : Yields (inferExpr o n (.unary op x) sc) (fun _ => True) (fun v σ => ∃ a w, σ v = .base (.num w) ∧
          (x.Exact K → SoundAt δ K σ sc x (σ a)) ∧ σ v = σ a) := by
        cases op <;> first | exact absurd rfl hop | skip
        all_goals
          simp only [inferExpr]
          refine (yields_newVar.bind fun z _ => (yields_expr ho hf x sc hs).bind fun a _ =>
            (yields_baseset ho).bind fun _ _ => (yields_pair ho).bind fun _ _ => yields_ret).to ?_
          rintro _ σ ⟨z, _, a, hx, _, ⟨t, ht, hc⟩, _, h1, rfl⟩
          obtain ⟨w, rfl⟩ := any_uint hc
          exact ⟨a, w, h1.trans ht, hx, h1⟩
      refine this.to ?_
      rintro z σ ⟨a, w, hw, hx, hz⟩ hex s v ha he
      simp only [Expr.Exact] at hex
      simp only [Expr.eval] at he
      obtain ⟨l, hl, he⟩ := Panicky.bind_eq_ok.mp he
      have hl := (hx (by
        rcases hex with h | h
        · exact absurd h hop
        · exact h) s l ha hl).coerceMapped
      rw [← hz, hw] at hl
      rw [hw]
      exact unary_num hop hl he
  | .asNum w x, sc, hs => by
    simp only [Expr.Solid] at hs
    simp only [inferExpr]
    refine ((yields_init ho (t := .base (.num w)) trivial id).bind fun v _ => (yields_expr ho hf x sc hs).bind fun a _ =>
      (yields_intset ho).bind fun _ _ => yields_ret).to ?_
    rintro _ σ ⟨v, hv, a, _, _, _, rfl⟩ _ s y ha he
    rw [hv]
    simp only [Expr.eval] at he
    obtain ⟨v1, hv1, he⟩ := Panicky.bind_eq_ok.mp he
    unfold Expr.castTo at he
    split at he
    · exact Value.hasType_mkNum he
    · simp only [reduceCtorEq] at he
  | .asChar x, sc, hs => by
    simp only [Expr.Solid] at hs
    simp only [inferExpr]
    refine ((yields_init ho (t := .base .char) trivial id).bind fun v _ => (yields_expr ho hf x sc hs).bind fun a _ =>
      (yields_baseset ho).bind fun _ _ => yields_ret).to ?_
    rintro _ σ ⟨v, hv, a, _, _, _, rfl⟩ _ s y ha he
    rw [hv]
    simp only [Expr.eval] at he
    obtain ⟨v1, hv1, he⟩ := Panicky.bind_eq_ok.mp he
    unfold Expr.castChar at he
    split at he
    · split at he <;> simp only [reduceCtorEq, Panicky.ok.injEq] at he
      subst he
      simp only [Value.HasType, UType.inst]
    · simp only [reduceCtorEq] at he
  | .fromBytes w be x, sc, hs => by
    simp only [Expr.Solid] at hs
    simp only [inferExpr]
    refine ((yields_init ho (t := .base (.num w)) trivial id).bind fun v _ => (yields_expr ho hf x sc hs).bind fun a _ =>
      (yields_utype ho (t := .var a) trivial (firm_bytes _)).bind fun _ _ => yields_ret).to ?_
    rintro _ σ ⟨v, hv, a, _, _, _, rfl⟩ _ s y ha he
    rw [hv]
    simp only [Expr.eval] at he
    obtain ⟨v1, hv1, he⟩ := Panicky.bind_eq_ok.mp he
    unfold Expr.wordOf at he
    split at he
    · split at he
      · split at he
        · exact Value.hasType_mkNum he
        · simp only [reduceCtorEq] at he
      · simp only [reduceCtorEq] at he
    · simp only [reduceCtorEq] at he
  | .seqLength x, sc, hs => by
    simp only [Expr.Solid] at hs
    simp only [inferExpr]
    refine (yields_newVar.bind fun v _ => (yields_baseset ho).bind fun _ _ => (yields_expr ho hf x sc hs).bind fun a _ =>
      yields_newVar.bind fun e _ => (yields_elem ho).bind fun _ _ => yields_ret).to ?_
    rintro _ σ _ hx
    simp only [Expr.Exact] at hx
  | .seqIx x i, sc, hs => by
    simp only [Expr.Solid] at hs
    simp only [inferExpr]
    refine (yields_newVar.bind fun v _ => (yields_expr ho hf x sc hs.1).bind fun a _ =>
      (yields_expr ho hf i sc hs.2).bind fun b _ => (yields_utypeBaseset ho).bind fun _ _ =>
      (yields_elem ho).bind fun _ _ => yields_ret).to ?_
    rintro _ σ ⟨v, _, a, hx, b, _, _, _, _, hv, rfl⟩ hex s y ha he
    simp only [Expr.Exact] at hex
    simp only [Expr.eval] at he
    obtain ⟨v1, hv1, he⟩ := Panicky.bind_eq_ok.mp he
    obtain ⟨_, _, he⟩ := Panicky.bind_eq_ok.mp he
    obtain ⟨_, _, he⟩ := Panicky.bind_eq_ok.mp he
    have := (hx hex s v1 ha hv1).coerceMapped
    rw [hv] at this
    exact Value.hasType_indexOf this he
  | .subSeq x a k, sc, hs => by
    simp only [Expr.Solid] at hs
    simp only [inferExpr]
    refine (yields_newVar.bind fun v _ => (yields_expr ho hf x sc hs.1).bind fun _ _ =>
      (yields_expr ho hf a sc hs.2.1).bind fun _ _ => (yields_expr ho hf k sc hs.2.2).bind fun _ _ =>
      (yields_utypeBaseset ho).bind fun _ _ => (yields_utypeBaseset ho).bind fun _ _ => yields_newVar.bind fun _ _ =>
      (yields_elem ho).bind fun _ _ => (yields_pair ho).bind fun _ _ => yields_ret).to ?_
    rintro _ σ ⟨v, _, w, hx, _, _, _, _, _, _, _, _, e, _, _, he', _, hv, rfl⟩ hex s y ha he
    simp only [Expr.Exact] at hex
    simp only [Expr.eval] at he
    obtain ⟨v1, hv1, he⟩ := Panicky.bind_eq_ok.mp he
    obtain ⟨_, _, he⟩ := Panicky.bind_eq_ok.mp he
    obtain ⟨_, _, he⟩ := Panicky.bind_eq_ok.mp he
    obtain ⟨_, _, he⟩ := Panicky.bind_eq_ok.mp he
    obtain ⟨_, _, he⟩ := Panicky.bind_eq_ok.mp he
    have := (hx hex s v1 ha hv1).coerceMapped
    rw [he'] at this
    rw [hv, he']
    exact Value.hasType_subSeqOf this he
  | .subSeqInflate x a k, sc, hs => by
    simp only [Expr.Solid] at hs
    simp only [inferExpr]
    refine (yields_newVar.bind fun v _ => (yields_expr ho hf x sc hs.1).bind fun _ _ =>
      (yields_expr ho hf a sc hs.2.1).bind fun _ _ => (yields_expr ho hf k sc hs.2.2).bind fun _ _ =>
      (yields_utypeBaseset ho).bind fun _ _ => (yields_utypeBaseset ho).bind fun _ _ => yields_newVar.bind fun _ _ =>
      (yields_elem ho).bind fun _ _ => (yields_pair ho).bind fun _ _ => yields_ret).to ?_
    rintro _ σ ⟨v, _, w, hx, _, _, _, _, _, _, _, _, e, _, _, he', _, hv, rfl⟩ hex s y ha he
    simp only [Expr.Exact] at hex
    simp only [Expr.eval] at he
    obtain ⟨v1, hv1, he⟩ := Panicky.bind_eq_ok.mp he
    obtain ⟨_, _, he⟩ := Panicky.bind_eq_ok.mp he
    obtain ⟨_, _, he⟩ := Panicky.bind_eq_ok.mp he
    obtain ⟨_, _, he⟩ := Panicky.bind_eq_ok.mp he
    obtain ⟨_, _, he⟩ := Panicky.bind_eq_ok.mp he
    have := (hx hex s v1 ha hv1).coerceMapped
    rw [he'] at this
    rw [hv, he']
    exact Value.hasType_inflateOf this he
  | .append x y, sc, hs => by
    simp only [Expr.Solid] at hs
    simp only [inferExpr]
    refine (yields_newVar.bind fun v _ => (yields_expr ho hf x sc hs.1).bind fun a _ =>
      (yields_expr ho hf y sc hs.2).bind fun b _ => yields_newVar.bind fun e _ => (yields_pair ho).bind fun _ _ =>
      (yields_elem ho).bind fun _ _ => (yields_elem ho).bind fun _ _ => yields_ret).to ?_
    rintro _ σ ⟨v, _, a, hx, b, hy, e, _, _, hab, _, h1, _, h2, rfl⟩ hex s z ha he
    simp only [Expr.Exact] at hex
    simp only [Expr.eval] at he
    obtain ⟨v1, hv1, he⟩ := Panicky.bind_eq_ok.mp he
    obtain ⟨v2, hv2, he⟩ := Panicky.bind_eq_ok.mp he
    have p1 := (hx hex.1 s v1 ha hv1).coerceMapped
    have p2 := (hy hex.2 s v2 ha hv2).coerceMapped
    rw [h1] at p1
    rw [← hab, h1] at p2
    rw [h2]
    exact Value.hasType_appendOf p1 p2 he
  | .flatMap f x, sc, hs => by
    simp only [Expr.Solid] at hs
    simp only [inferExpr]
    refine (yields_newVar.bind fun v _ => (yields_lambda ho hf f sc hs.1).bind fun io _ =>
      (yields_expr ho hf x sc hs.2).bind fun a _ => yields_newVar.bind fun e _ => (yields_elem ho).bind fun _ _ =>
      (yields_elem ho).bind fun _ _ => (yields_pair ho).bind fun _ _ => yields_ret).to ?_
    rintro _ σ ⟨v, _, io, hl, a, hx, e, _, _, h1, _, h2, _, hv, rfl⟩ hex s z ha he
    simp only [Expr.Exact] at hex
    simp only [Expr.eval] at he
    obtain ⟨v1, hv1, he⟩ := Panicky.bind_eq_ok.mp he
    split at he
    · rename_i vs hvs
      obtain ⟨r, hr, he⟩ := Panicky.bind_eq_ok.mp he
      simp only [Panicky.ok.injEq] at he
      subst he
      have p := (hx hex.2 s v1 ha hv1).coerceMapped
      rw [h1] at p
      rw [hv, h2]
      refine Value.hasType_seq.mpr ⟨_, rfl, ?_⟩
      refine Value.flatMapLoop_all (t := σ io.1) ?_ _ [] r (fun _ h => nomatch h) (p.items hvs) hr
      intro b r hb hr
      rw [← h2]
      exact hl hex.1 s b r ha hb hr
    · simp only [reduceCtorEq] at he
  | .flatMapAccum f acc ty x, sc, hs => by
    simp only [Expr.Solid] at hs
    simp only [inferExpr]
    refine (yields_newVar.bind fun ys _ => (yields_lambda ho hf f sc hs.1).bind fun io _ =>
      (yields_expr ho hf acc sc hs.2.1).bind fun a _ => (yields_varV ho ty a hs.2.2.1).bind fun _ _ =>
      (yields_expr ho hf x sc hs.2.2.2).bind fun xs _ => yields_newVar.bind fun x _ => yields_newVar.bind fun y _ =>
      (yields_elem ho).bind fun _ _ => (yields_elem ho).bind fun _ _ =>
      (yields_varU ho (t := .tuple [.var a, .var x]) ⟨trivial, trivial, trivial⟩).bind fun _ _ =>
      (yields_varU ho (t := .tuple [.var a, .var ys]) ⟨trivial, trivial, trivial⟩).bind fun _ _ => yields_ret).to ?_
    rintro _ σ ⟨ys, _, io, hl, a, hacc, _, _, xs, hx, x, _, y, _, _, h1, _, h2, _, h3, _, h4, rfl⟩ hex s z ha he
    simp only [Expr.Exact] at hex
    simp only [Expr.eval] at he
    obtain ⟨v1, hv1, he⟩ := Panicky.bind_eq_ok.mp he
    obtain ⟨vs, hvs, he⟩ := Panicky.bind_eq_ok.mp he
    obtain ⟨b, hb, he⟩ := Panicky.bind_eq_ok.mp he
    obtain ⟨r, hr, he⟩ := Panicky.bind_eq_ok.mp he
    simp only [Panicky.ok.injEq] at he
    subst he
    have p := (hx hex.2.2 s v1 ha hv1).coerceMapped
    rw [h2, Expr.needSeq_eq hvs] at p
    obtain ⟨u, e, p⟩ := Value.hasType_seq.mp p
    cases e
    rw [h1]
    refine Value.hasType_seq.mpr ⟨_, rfl, ?_⟩
    refine Value.flatMapAccumLoop_all (ta := σ a) (tacc := σ a) (t := σ x) (fun _ h => h) ?_ _ _ [] r
      (hacc hex.2.1 s b ha hb).coerceMapped (fun _ h => nomatch h) p hr
    intro c r hc hr
    have := hl hex.1 s c r ha (by rw [h3]; exact hc) hr
    rw [h4] at this
    rw [← h1]
    exact this
  | .leftFold f acc ty x, sc, hs => by
    simp only [Expr.Solid] at hs
    simp only [inferExpr]
    refine (yields_newVar.bind fun v _ => (yields_lambda ho hf f sc hs.1).bind fun io _ =>
      (yields_expr ho hf acc sc hs.2.1).bind fun a _ => (yields_varV ho ty a hs.2.2.1).bind fun _ _ =>
      (yields_expr ho hf x sc hs.2.2.2).bind fun xs _ => yields_newVar.bind fun x _ =>
      (yields_elem ho).bind fun _ _ =>
      (yields_varU ho (t := .tuple [.var a, .var x]) ⟨trivial, trivial, trivial⟩).bind fun _ _ =>
      (yields_pair ho).bind fun _ _ => (yields_pair ho).bind fun _ _ => yields_ret).to ?_
    rintro _ σ ⟨v, _, io, hl, a, hacc, _, _, xs, hx, x, _, _, h2, _, h3, _, h4, _, h5, rfl⟩ hex s z ha he
    simp only [Expr.Exact] at hex
    simp only [Expr.eval] at he
    obtain ⟨v1, hv1, he⟩ := Panicky.bind_eq_ok.mp he
    obtain ⟨vs, hvs, he⟩ := Panicky.bind_eq_ok.mp he
    obtain ⟨b, hb, he⟩ := Panicky.bind_eq_ok.mp he
    have p := (hx hex.2.2 s v1 ha hv1).coerceMapped
    rw [h2, Expr.needSeq_eq hvs] at p
    obtain ⟨u, e, p⟩ := Value.hasType_seq.mp p
    cases e
    rw [h5]
    refine Value.leftFoldLoop_all (ta := σ a) (tr := σ a) (t := σ x) (fun _ h => h) ?_ _ _ z
      (hacc hex.2.1 s b ha hb).coerceMapped p he
    intro c r hc hr
    have := hl hex.1 s c r ha (by rw [h3]; exact hc) hr
    rw [← h4] at this
    exact this
  | .findByKey sorted f q x, sc, hs => by
    simp only [Expr.Solid] at hs
    simp only [inferExpr]
    refine (yields_newVar.bind fun v _ => (yields_lambda ho hf f sc hs.1).bind fun io _ =>
      (yields_expr ho hf q sc hs.2.1).bind fun k _ => (yields_expr ho hf x sc hs.2.2).bind fun xs _ =>
      yields_newVar.bind fun x _ => (yields_elem ho).bind fun _ _ => (yields_pair ho).bind fun _ _ =>
      (yields_pair ho).bind fun _ _ => (yields_varU ho (t := .option (.var x)) trivial).bind fun _ _ => yields_ret).to ?_
    rintro _ σ ⟨v, _, io, _, k, _, xs, hx, x, _, _, h1, _, _, _, _, _, hv, rfl⟩ hex s z ha he
    simp only [Expr.Exact] at hex
    simp only [Expr.eval] at he
    obtain ⟨v1, hv1, he⟩ := Panicky.bind_eq_ok.mp he
    obtain ⟨vs, hvs, he⟩ := Panicky.bind_eq_ok.mp he
    obtain ⟨b, hb, he⟩ := Panicky.bind_eq_ok.mp he
    have p := (hx hex s v1 ha hv1).coerceMapped
    rw [h1, Expr.needSeq_eq hvs] at p
    rw [hv]
    exact Value.hasType_findByKeyOf p he
  | .flatMapList f ty x, sc, hs => by
    simp only [Expr.Solid] at hs
    simp only [inferExpr]
    refine (yields_newVar.bind fun ys _ => (yields_lambda ho hf f sc hs.1).bind fun io _ =>
      (yields_expr ho hf x sc hs.2.2).bind fun xs _ => yields_newVar.bind fun x _ => yields_newVar.bind fun y _ =>
      (yields_elem ho).bind fun _ _ => (yields_elem ho).bind fun _ _ => (yields_varV ho ty y hs.2.1).bind fun _ _ =>
      (yields_pair ho).bind fun _ _ =>
      (yields_varU ho (t := .tuple [.var ys, .var x]) ⟨trivial, trivial, trivial⟩).bind fun _ _ => yields_ret).to ?_
    rintro _ σ ⟨ys, _, io, hl, xs, hx, x, _, y, _, _, h1, _, h2, _, _, _, h3, _, h4, rfl⟩ hex s z ha he
    simp only [Expr.Exact] at hex
    simp only [Expr.eval] at he
    obtain ⟨v1, hv1, he⟩ := Panicky.bind_eq_ok.mp he
    obtain ⟨vs, hvs, he⟩ := Panicky.bind_eq_ok.mp he
    obtain ⟨r, hr, he⟩ := Panicky.bind_eq_ok.mp he
    simp only [Panicky.ok.injEq] at he
    subst he
    have p := (hx hex.2 s v1 ha hv1).coerceMapped
    rw [h2, Expr.needSeq_eq hvs] at p
    obtain ⟨u, e, p⟩ := Value.hasType_seq.mp p
    cases e
    rw [h1]
    refine Value.hasType_seq.mpr ⟨_, rfl, ?_⟩
    refine Value.flatMapListLoop_all (ty := σ y) (t := σ x) (fun _ h => h) ?_ _ [] r (fun _ h => nomatch h) p hr
    intro c r hc hr
    have := hl hex.1 s c r ha (by rw [h4]; simp only [UType.inst, UType.instList, h1]; exact hc) hr
    rw [← h3, h1] at this
    exact this
  | .enumFromTo x y, sc, hs => by
    simp only [Expr.Solid] at hs
    simp only [inferExpr]
    refine (yields_newVar.bind fun v _ => (yields_expr ho hf x sc hs.1).bind fun a _ =>
      (yields_expr ho hf y sc hs.2).bind fun b _ => (yields_baseset ho).bind fun _ _ => (yields_pair ho).bind fun _ _ =>
      (yields_elem ho).bind fun _ _ => yields_ret).to ?_
    rintro _ σ ⟨v, _, a, _, b, _, _, ⟨t, ht, hc⟩, _, _, _, hv, rfl⟩ hex s z ha he
    simp only [Expr.Exact] at hex
    simp only [Expr.eval] at he
    obtain ⟨_, _, he⟩ := Panicky.bind_eq_ok.mp he
    obtain ⟨_, _, he⟩ := Panicky.bind_eq_ok.mp he
    obtain ⟨_, _, he⟩ := Panicky.bind_eq_ok.mp he
    obtain ⟨_, _, he⟩ := Panicky.bind_eq_ok.mp he
    obtain ⟨_, _, he⟩ := Panicky.bind_eq_ok.mp he
    obtain ⟨_, _, he⟩ := Panicky.bind_eq_ok.mp he
    simp only [Panicky.ok.injEq] at he
    subst he
    obtain ⟨w, rfl⟩ := any_uint hc
    rw [hv]
    exact Value.hasType_range.mpr ⟨_, rfl, hex, fun _ => by rw [ht]; rfl⟩
  | .dup k x, sc, hs => by
    simp only [Expr.Solid] at hs
    simp only [inferExpr]
    refine (yields_newVar.bind fun v _ => (yields_expr ho hf k sc hs.1).bind fun c _ =>
      (yields_expr ho hf x sc hs.2).bind fun a _ => (yields_baseset ho).bind fun _ _ =>
      (yields_elem ho).bind fun _ _ => yields_ret).to ?_
    rintro _ σ ⟨v, _, c, _, a, hx, _, _, _, hv, rfl⟩ hex s z ha he
    simp only [Expr.Exact] at hex
    simp only [Expr.eval] at he
    obtain ⟨_, _, he⟩ := Panicky.bind_eq_ok.mp he
    obtain ⟨_, _, he⟩ := Panicky.bind_eq_ok.mp he
    obtain ⟨v0, hv0, he⟩ := Panicky.bind_eq_ok.mp he
    simp only [Panicky.ok.injEq] at he
    subst he
    rw [hv]
    simp only [Value.HasType]
    exact ⟨_, rfl, fun _ => (hx hex s v0 ha hv0).coerceMapped⟩
  | .liftNone, sc, hs => by
    simp only [inferExpr]
    refine (yields_newVar.bind fun v _ => yields_newVar.bind fun w _ =>
      (yields_varU ho (t := .option (.var w)) trivial).bind fun _ _ => yields_ret).to ?_
    rintro _ σ ⟨v, _, w, _, _, hv, rfl⟩ hex s z ha he
    simp only [Expr.eval, Panicky.ok.injEq] at he
    subst he
    rw [hv]
    simp only [Value.HasType, UType.inst]
    exact ⟨_, rfl⟩
  | .liftSome x, sc, hs => by
    simp only [Expr.Solid] at hs
    simp only [inferExpr]
    refine (yields_newVar.bind fun v _ => (yields_expr ho hf x sc hs).bind fun w _ =>
      (yields_varU ho (t := .option (.var w)) trivial).bind fun _ _ => yields_ret).to ?_
    rintro _ σ ⟨v, _, w, hx, _, hv, rfl⟩ hex s z ha he
    simp only [Expr.Exact] at hex
    simp only [Expr.eval] at he
    obtain ⟨v0, hv0, he⟩ := Panicky.bind_eq_ok.mp he
    simp only [Panicky.ok.injEq] at he
    subst he
    rw [hv]
    simp only [Value.HasType, UType.inst]
    exact ⟨_, rfl, (hx hex s v0 ha hv0).coerceMapped⟩

theorem yields_exprs (ho : o.Lists) {K : Slack} (hf : K.fallbacks ≠ .typed) : ∀ (es : List Expr) (sc : UScope),
    Expr.SolidList es → Yields (inferExprs o n es sc) UType.FirmList (fun ts σ => Expr.ExactList K es →
      ∀ (s : Scope δ) vs, sc.Agrees K σ s → Expr.evalValues es s = .ok vs → Value.HaveTypes K vs (UType.instList σ ts))
  | [], sc, hs => by
    simp only [inferExprs]
    refine (yields_pure (F := UType.FirmList) (a := []) trivial).mono (fun _ h => h) ?_
    rintro _ σ _ rfl _ s vs ha he
    simp only [Expr.evalValues, Panicky.ok.injEq] at he
    subst he; simp only [UType.instList, Value.HaveTypes]
  | e :: es, sc, hs => by
    simp only [Expr.SolidList] at hs
    simp only [inferExprs]
    refine ((yields_expr ho hf e sc hs.1).bind fun v _ => (yields_exprs ho hf es sc hs.2).bind fun ts hts =>
      yields_pure (F := UType.FirmList) (a := UType.var v :: ts) (And.intro trivial hts)).mono (fun _ h => h) ?_
    rintro _ σ _ ⟨v, hv, ts, hts, rfl⟩ hex s vs ha he
    simp only [Expr.ExactList] at hex
    simp only [Expr.evalValues] at he
    obtain ⟨v1, hv1, he⟩ := Panicky.bind_eq_ok.mp he
    obtain ⟨v2, hv2, he⟩ := Panicky.bind_eq_ok.mp he
    simp only [Panicky.ok.injEq] at he
    subst he
    simp only [UType.instList, Value.HaveTypes, UType.inst]
    exact ⟨(hv hex.1 s v1 ha hv1).coerceMapped, hts hex.2 s v2 ha hv2⟩

theorem yields_fields (ho : o.Lists) {K : Slack} (hf : K.fallbacks ≠ .typed) : ∀ (fs : List (String × Expr))
    (sc : UScope), Expr.SolidFields fs → Yields (inferFields o n fs sc) UType.FirmFields (fun ts σ =>
      Expr.ExactFields K fs → ∀ (s : Scope δ) vs, sc.Agrees K σ s → Expr.evalFields fs s = .ok vs →
      Value.FieldsHave K vs (UType.instFields σ ts))
  | [], sc, hs => by
    simp only [inferFields]
    refine (yields_pure (F := UType.FirmFields) (a := []) trivial).mono (fun _ h => h) ?_
    rintro _ σ _ rfl _ s vs ha he
    simp only [Expr.evalFields, Panicky.ok.injEq] at he
    subst he; simp only [UType.instFields, Value.FieldsHave]
  | (l, e) :: fs, sc, hs => by
    simp only [Expr.SolidFields] at hs
    simp only [inferFields]
    refine ((yields_expr ho hf e sc hs.1).bind fun v _ => (yields_fields ho hf fs ((l, v) :: sc) hs.2).bind fun ts hts =>
      yields_pure (F := UType.FirmFields) (a := (l, UType.var v) :: ts) (And.intro trivial hts)).mono (fun _ h => h) ?_
    rintro _ σ _ ⟨v, hv, ts, hts, rfl⟩ hex s vs ha he
    simp only [Expr.ExactFields] at hex
    simp only [Expr.evalFields] at he
    obtain ⟨v1, hv1, he⟩ := Panicky.bind_eq_ok.mp he
    obtain ⟨v2, hv2, he⟩ := Panicky.bind_eq_ok.mp he
    simp only [Panicky.ok.injEq] at he
    subst he
    simp only [UType.instFields, Value.FieldsHave, UType.inst]
    have h1 := hv hex.1 s v1 ha hv1
    refine ⟨trivial, h1, hts hex.2.2 (.single l v1 s) v2 (ha.single h1) ?_⟩
    rw [← hv2]
    refine (evalFields_congr fs s (.single l v1 s) fun x hx => ?_).symm
    have : l ≠ x := fun e => hex.2.1 (e ▸ hx)
    simp only [Scope.getValue, if_neg this]

theorem yields_seqElems (ho : o.Lists) {K : Slack} (hf : K.fallbacks ≠ .typed) : ∀ (es : List Expr) (v : Nat)
    (sc : UScope), Expr.SolidList es → Yields (inferSeqElems o n es v sc) (fun _ => True) (fun _ σ =>
      Expr.ExactList K es → ∀ (s : Scope δ) vs, sc.Agrees K σ s → Expr.evalValues es s = .ok vs →
      ∀ x ∈ vs, x.HasType K (σ v))
  | [], v, sc, hs => by
    simp only [inferSeqElems]
    refine yields_ret.to ?_
    rintro _ σ rfl _ s vs ha he
    simp only [Expr.evalValues, Panicky.ok.injEq] at he
    subst he; exact fun _ h => nomatch h
  | e :: es, v, sc, hs => by
    simp only [Expr.SolidList] at hs
    simp only [inferSeqElems]
    refine ((yields_expr ho hf e sc hs.1).bind fun w _ => (yields_varU ho (t := .var w) trivial).bind fun _ _ =>
      yields_seqElems ho hf es v sc hs.2).to ?_
    rintro _ σ ⟨w, hw, _, hv, hes⟩ hex s vs ha he
    simp only [Expr.ExactList] at hex
    simp only [Expr.evalValues] at he
    obtain ⟨v1, hv1, he⟩ := Panicky.bind_eq_ok.mp he
    obtain ⟨v2, hv2, he⟩ := Panicky.bind_eq_ok.mp he
    simp only [Panicky.ok.injEq] at he
    subst he
    intro x hx
    rcases List.mem_cons.mp hx with rfl | hx
    · rw [hv]; exact (hw hex.1 s v1 ha hv1).coerceMapped
    · exact hes hex.2 s v2 ha hv2 x hx

theorem yields_branches (ho : o.Lists) {K : Slack} (hf : K.fallbacks ≠ .typed) : ∀ (bs : List (Pattern × Expr))
    (h v : Nat) (sc : UScope), Expr.SolidBranches bs → Yields (inferBranches o n bs h v sc) (fun _ => True) (fun _ σ =>
      Expr.ExactBranches K bs → ∀ (s : Scope δ) x r, sc.Agrees K σ s → x.HasType K (σ h) →
      Expr.evalBranches bs s x = .ok r → r.HasType K (σ v))
  | [], h, v, sc, hs => by
    simp only [inferBranches]
    refine yields_ret.to ?_
    rintro _ σ rfl _ s x r ha hx he
    simp only [Expr.evalBranches, reduceCtorEq] at he
  | (p, e) :: bs, h, v, sc, hs => by
    simp only [Expr.SolidBranches] at hs
    simp only [inferBranches]
    refine ((yields_pattern ho (K := K) p sc).bind fun r _ => (yields_expr ho hf e r.2 hs.1).bind fun w _ =>
      (yields_varU ho (t := .var h) trivial).bind fun _ _ => (yields_pair ho).bind fun _ _ =>
      yields_branches ho hf bs h v sc hs.2).to ?_
    rintro _ σ ⟨r, hr, w, hw, _, hp, _, hv, hbs⟩ hex s x y ha hx he
    simp only [Expr.ExactBranches] at hex
    unfold Expr.evalBranches at he
    split at he
    · rename_i cs hcs
      obtain ⟨z, hz, he⟩ := Panicky.bind_eq_ok.mp he
      simp only [Panicky.ok.injEq] at he
      subst he
      rw [hv]
      refine (hw hex.1 _ z (hr.agrees hcs ?_ ha) hz).coerceMapped
      rw [hp]; exact hx
    · exact hbs hex.2 s x y ha hx he

theorem yields_lambda (ho : o.Lists) {K : Slack} (hf : K.fallbacks ≠ .typed) : ∀ (f : Expr) (sc : UScope), f.Solid →
    Yields (inferLambda o n f sc) (fun _ => True) (fun io σ => f.Exact K → LamSound δ K σ sc f (σ io.1) (σ io.2))
  | .lambda name body, sc, hs => by
    simp only [Expr.Solid] at hs
    simp only [inferLambda]
    refine (yields_newVar.bind fun x _ => (yields_expr ho hf body ((name, x) :: sc) hs).bind fun y _ => yields_ret).to ?_
    rintro _ σ ⟨x, _, y, hy, rfl⟩ hex s a r ha hav he
    simp only [Expr.Exact] at hex
    obtain ⟨v, hv, rfl⟩ := Expr.evalLambda_eq he
    exact (hy hex _ v (ha.single hav) hv).coerceMapped
  | .var _, sc, hs => by unfold inferLambda; exact yields_panic
  | .bool _, sc, hs => by unfold inferLambda; exact yields_panic
  | .lit _ _, sc, hs => by unfold inferLambda; exact yields_panic
  | .numeric _, sc, hs => by unfold inferLambda; exact yields_panic
  | .tuple _, sc, hs => by unfold inferLambda; exact yields_panic
  | .tupleProj _ _, sc, hs => by unfold inferLambda; exact yields_panic
  | .record _, sc, hs => by unfold inferLambda; exact yields_panic
  | .recordProj _ _, sc, hs => by unfold inferLambda; exact yields_panic
  | .variant _ _, sc, hs => by unfold inferLambda; exact yields_panic
  | .seq _, sc, hs => by unfold inferLambda; exact yields_panic
  | .match_ _ _, sc, hs => by unfold inferLambda; exact yields_panic
  | .destructure _ _ _, sc, hs => by unfold inferLambda; exact yields_panic
  | .intRel _ _ _, sc, hs => by unfold inferLambda; exact yields_panic
  | .arith _ _ _, sc, hs => by unfold inferLambda; exact yields_panic
  | .unary _ _, sc, hs => by unfold inferLambda; exact yields_panic
  | .asNum _ _, sc, hs => by unfold inferLambda; exact yields_panic
  | .asChar _, sc, hs => by unfold inferLambda; exact yields_panic
  | .fromBytes _ _ _, sc, hs => by unfold inferLambda; exact yields_panic
  | .seqLength _, sc, hs => by unfold inferLambda; exact yields_panic
  | .seqIx _ _, sc, hs => by unfold inferLambda; exact yields_panic
  | .subSeq _ _ _, sc, hs => by unfold inferLambda; exact yields_panic
  | .subSeqInflate _ _ _, sc, hs => by unfold inferLambda; exact yields_panic
  | .flatMap _ _, sc, hs => by unfold inferLambda; exact yields_panic
  | .flatMapAccum _ _ _ _, sc, hs => by unfold inferLambda; exact yields_panic
  | .flatMapList _ _ _, sc, hs => by unfold inferLambda; exact yields_panic
  | .findByKey _ _ _ _, sc, hs => by unfold inferLambda; exact yields_panic
  | .enumFromTo _ _, sc, hs => by unfold inferLambda; exact yields_panic
  | .leftFold _ _ _ _, sc, hs => by unfold inferLambda; exact yields_panic
  | .dup _ _, sc, hs => by unfold inferLambda; exact yields_panic
  | .liftNone, sc, hs => by unfold inferLambda; exact yields_panic
  | .liftSome _, sc, hs => by unfold inferLambda; exact yields_panic
  | .append _ _, sc, hs => by unfold inferLambda; exact yields_panic
end

end Tc
end Doodle
