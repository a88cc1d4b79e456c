import Verif.Lemmas.TypeSound

/-! Type soundness of expressions. -/

namespace Doodle
open ValueType (Le LeList LeFields LeMap WF WFList WFMap)

theorem ValueType.elemI_eq {t u : ValueType} (h : t.elemI = .ok u) : t = .seq u := by
  cases t <;> simp only [elemI, reduceCtorEq, Outcome.ok.injEq] at h
  subst h; rfl

theorem ValueType.WF.elem {t : ValueType} (h : WF (.seq t)) : t.WF := by cases h; assumption

theorem ValueType.WFList.get {ts : List ValueType} {t : ValueType} {i : Nat} (h : WFList ts)
    (hi : ts[i]? = some t) : t.WF := by
  induction ts generalizing i with
  | nil => simp at hi
  | cons x ts ih =>
    cases h with
    | cons hx hxs =>
      cases i with
      | zero => simp only [List.getElem?_cons_zero, Option.some.injEq] at hi; subst hi; exact hx
      | succ i => simp only [List.getElem?_cons_succ] at hi; exact ih hxs hi

theorem ValueType.WFMap.find {ts : List (String × ValueType)} {t : ValueType} {l : String} (h : WFMap ts)
    (hi : (ts.find? fun f => l == f.1).map (·.2) = some t) : t.WF := by
  induction ts with
  | nil => simp at hi
  | cons x ts ih =>
    cases h with
    | cons hx hxs =>
      rw [List.find?_cons] at hi
      split at hi
      · simp only [Option.map_some, Option.some.injEq] at hi; subst hi; exact hx
      · exact ih hxs hi

theorem ValueType.tupleProjI_eq {t u : ValueType} {i : Nat} (h : t.tupleProjI i = .ok u) :
    ∃ ts, t = .tuple ts ∧ ts[i]? = some u := by
  cases t <;> simp only [tupleProjI, reduceCtorEq] at h
  rename_i ts
  refine ⟨ts, rfl, ?_⟩
  have h := Outcome.ofPanicky_eq_ok.mp h
  cases hg : ts[i]? with
  | none => rw [hg] at h; simp only [Panicky.unwrap, reduceCtorEq] at h
  | some x => rw [hg] at h; simp only [Panicky.unwrap, Panicky.ok.injEq] at h; subst h; rfl

theorem ValueType.recordProjI_eq {t u : ValueType} {l : String} (h : t.recordProjI l = .ok u) :
    ∃ ts, t = .record ts ∧ (ts.find? fun f => l == f.1).map (·.2) = some u := by
  unfold recordProjI at h
  have h := Outcome.ofPanicky_eq_ok.mp h
  cases hg : t.recordProj l with
  | none => rw [hg] at h; simp only [Panicky.unwrap, reduceCtorEq] at h
  | some x =>
    rw [hg] at h
    simp only [Panicky.unwrap, Panicky.ok.injEq] at h
    subst h
    cases t <;> simp only [recordProj, reduceCtorEq] at hg
    exact ⟨_, rfl, hg⟩

theorem ValueType.needNumeric_eq {t r u : ValueType} (h : t.needNumeric r = .ok u) :
    t.isNumeric = true ∧ r = u := by
  unfold needNumeric at h
  split at h <;> simp only [reduceCtorEq, Outcome.ok.injEq] at h
  exact ⟨‹_›, h⟩

theorem ValueType.u_wf {w : Num.BitWidth} : (ValueType.u w).WF := .base

theorem Value.arith_sound {σ : Slack} {op : Arith} {l r v : Value} {t1 t2 t : ValueType}
    (w1 : t1.WF) (w2 : t2.WF) (ht : ValueType.arithI op t1 t2 = .ok t) (h1 : l.HasType σ t1)
    (h : Value.arith op l r = .ok v) : v.HasType σ t := by
  have num : ∀ {t}, (t1.unifyI t2 >>= fun t => t.needNumeric t) = .ok t → ∀ k (m : Fin k.card),
      l = .num k m → ∀ n, Value.mkNum k n = .ok v → v.HasType σ t := by
    intro t ht k m hl n hn
    obtain ⟨u, hu, ht⟩ := Outcome.bind_eq_ok.mp ht
    obtain ⟨_, rfl⟩ := ValueType.needNumeric_eq ht
    have := ValueType.unify_upper t1 t2 u w1 w2 (ValueType.unifyI_eq hu)
    subst hl
    exact Value.hasType_mkNum_of h1 this.2.1 hn
  cases op <;> simp only [ValueType.arithI] at ht <;> simp only [Value.arith] at h <;> first
    | (split at h
       · split at h
         · obtain ⟨n, hn⟩ := Value.arithNum_kind h
           exact num ht _ _ rfl n hn
         · simp only [reduceCtorEq] at h
       · simp only [reduceCtorEq] at h
       done)
    | (split at h
       · simp only [Panicky.ok.injEq] at h
         subst h
         split at ht <;> simp only [reduceCtorEq, Outcome.ok.injEq] at ht
         subst ht
         simp only [Value.HasType, ValueType.bool]
       · simp only [reduceCtorEq] at h)

theorem ValueType.arithI_wf {op : Arith} {t1 t2 t : ValueType} (w1 : t1.WF) (w2 : t2.WF)
    (ht : ValueType.arithI op t1 t2 = .ok t) : t.WF := by
  have num : (t1.unifyI t2 >>= fun t => t.needNumeric t) = .ok t → t.WF := by
    intro ht
    obtain ⟨u, hu, ht⟩ := Outcome.bind_eq_ok.mp ht
    obtain ⟨hn, rfl⟩ := ValueType.needNumeric_eq ht
    exact ValueType.isNumeric_wf hn
  cases op <;> simp only [ValueType.arithI] at ht <;> first
    | exact num ht
    | (split at ht <;> simp only [reduceCtorEq, Outcome.ok.injEq] at ht
       subst ht; exact .base)

theorem Value.unary_sound {σ : Slack} {op : UnaryOp} {x v : Value} {t0 t : ValueType} (w0 : t0.WF)
    (ht : ValueType.unaryI op t0 = .ok t) (h1 : x.HasType σ t0)
    (h : Value.unary op x = .ok v) : v.HasType σ t := by
  cases op <;> simp only [ValueType.unaryI] at ht <;> simp only [Value.unary] at h
  · split at h <;> simp only [reduceCtorEq, Panicky.ok.injEq] at h
    subst h
    split at ht <;> simp only [reduceCtorEq, Outcome.ok.injEq] at ht
    subst ht
    simp only [Value.HasType, ValueType.bool]
  · obtain ⟨_, rfl⟩ := ValueType.needNumeric_eq ht
    split at h
    · exact Value.hasType_mkNum_of h1 (.refl w0) h
    · simp only [reduceCtorEq] at h
  · obtain ⟨_, rfl⟩ := ValueType.needNumeric_eq ht
    split at h
    · split at h
      · exact Value.hasType_mkNum_of h1 (.refl w0) h
      · simp only [reduceCtorEq] at h
    · simp only [reduceCtorEq] at h

theorem ValueType.unaryI_wf {op : UnaryOp} {t0 t : ValueType} (w0 : t0.WF)
    (ht : ValueType.unaryI op t0 = .ok t) : t.WF := by
  cases op <;> simp only [ValueType.unaryI] at ht
  · split at ht <;> simp only [reduceCtorEq, Outcome.ok.injEq] at ht
    subst ht; exact .base
  · obtain ⟨_, rfl⟩ := ValueType.needNumeric_eq ht; exact w0
  · obtain ⟨_, rfl⟩ := ValueType.needNumeric_eq ht; exact w0

theorem Value.intRel_sound {σ : Slack} {r : IntRel} {l x v : Value} (h : Value.intRel r l x = .ok v) :
    v.HasType σ .bool := by
  have key : ∀ b, Panicky.ok (Value.bool b) = .ok v → v.HasType σ .bool := by
    intro b h
    simp only [Panicky.ok.injEq] at h
    subst h
    simp only [Value.HasType, ValueType.bool]
  unfold Value.intRel at h
  split at h
  · split at h
    · exact key _ h
    · simp only [reduceCtorEq] at h
  · exact key _ h
  · split at h
    · exact key _ h
    · simp only [reduceCtorEq] at h
  · split at h
    · exact key _ h
    · simp only [reduceCtorEq] at h
  · simp only [reduceCtorEq] at h

/-- evaluation of a lambda body -/
theorem Expr.evalLambda_eq {δ : Type} {name : String} {body : Expr} {s : Scope δ} {a r : Value}
    (h : (Expr.lambda name body).evalLambda s a = .ok r) :
    ∃ v, body.eval (.single name a s) = .ok v ∧ r = v.coerceMapped := by
  unfold Expr.evalLambda at h
  obtain ⟨v, hv, h⟩ := Panicky.bind_eq_ok.mp h
  simp only [Panicky.ok.injEq] at h
  exact ⟨v, hv, h.symm⟩

theorem Expr.needSeq_eq {v : Value} {s : SeqKind Value} (h : Expr.needSeq v = .ok s) : v = .seq s := by
  cases v <;> simp only [needSeq, reduceCtorEq, Panicky.ok.injEq] at h
  subst h; rfl

/-- What inference promises about an expression: the type is well-formed, and every value the
expression evaluates to in an agreeing scope has the type. -/
def Expr.Sound (δ : Type) (σ : Slack) (e : Expr) (Γ : TypeScope) (t : ValueType) : Prop :=
  t.WF ∧ ∀ (s : Scope δ) (v : Value), s.Agrees σ Γ → e.eval s = .ok v → v.HasType σ t

set_option maxHeartbeats 4000000 in
mutual
theorem Expr.infer_sound {δ : Type} {σ : Slack} (hf : σ.fallbacks ≠ .typed) : ∀ (e : Expr) (Γ : TypeScope)
    (t : ValueType), Γ.WF → e.Kept σ Γ → e.inferType Γ = .ok t → e.Sound δ σ Γ t
  | .var name, Γ, t, hΓ, hk, h => by
    simp only [inferType] at h
    have hg := TypeScope.getValue_eq h
    refine ⟨hΓ name t (TypeScope.get_mem hg), ?_⟩
    intro s v hs he
    unfold eval at he
    cases hv : s.getValue name with
    | none => rw [hv] at he; simp only [Panicky.unwrap, reduceCtorEq] at he
    | some x =>
      rw [hv] at he
      simp only [Panicky.unwrap, Panicky.ok.injEq] at he
      subst he
      exact hs name t x hg hv
  | .bool b, Γ, t, hΓ, hk, h => by
    simp only [inferType, Outcome.ok.injEq] at h
    subst h
    refine ⟨.base, fun s v hs he => ?_⟩
    simp only [eval, Panicky.ok.injEq] at he
    subst he; simp only [Value.HasType, ValueType.bool]
  | .lit w n, Γ, t, hΓ, hk, h => by
    simp only [inferType, Outcome.ok.injEq] at h
    subst h
    refine ⟨.base, fun s v hs he => ?_⟩
    simp only [eval, Panicky.ok.injEq] at he
    subst he; simp only [Value.HasType, ValueType.u]
  | .numeric n, Γ, t, hΓ, hk, h => by
    simp only [inferType] at h
    simp only [Kept] at hk
    obtain ⟨hw, hs⟩ := Num.Expr.infer_sound (δ := δ) hΓ n t h hk.2
    refine ⟨hw, fun s v ha he => ?_⟩
    simp only [eval] at he
    unfold numericResult at he
    split at he <;> simp only [reduceCtorEq, Panicky.ok.injEq] at he
    rename_i c hc
    subst he
    exact Num.fits_hasType (hs s c ha hc) hk.1
  | .tuple es, Γ, t, hΓ, hk, h => by
    simp only [inferType] at h
    simp only [Kept] at hk
    obtain ⟨ts, h1, h⟩ := Outcome.bind_eq_ok.mp h
    simp only [Outcome.ok.injEq] at h
    subst h
    obtain ⟨hw, hs⟩ := Expr.inferList_sound (δ := δ) hf es Γ ts hΓ hk h1
    refine ⟨.tuple hw, fun s v ha he => ?_⟩
    simp only [eval] at he
    obtain ⟨vs, hv, he⟩ := Panicky.bind_eq_ok.mp he
    simp only [Panicky.ok.injEq] at he
    subst he
    simp only [Value.HasType]
    exact ⟨ts, rfl, hs s vs ha hv⟩
  | .tupleProj head i, Γ, t, hΓ, hk, h => by
    simp only [inferType] at h
    simp only [Kept] at hk
    obtain ⟨t0, h1, h⟩ := Outcome.bind_eq_ok.mp h
    obtain ⟨ts, rfl, hi⟩ := ValueType.tupleProjI_eq h
    obtain ⟨hw, hs⟩ := Expr.infer_sound (δ := δ) hf head Γ _ hΓ hk h1
    cases hw with
    | tuple hw =>
      refine ⟨hw.get hi, fun s v ha he => ?_⟩
      simp only [eval] at he
      obtain ⟨v0, hv, he⟩ := Panicky.bind_eq_ok.mp he
      exact Value.HasType.tupleProj hf (hs s v0 ha hv).coerceMapped hi he
  | .record fs, Γ, t, hΓ, hk, h => by
    simp only [inferType] at h
    simp only [Kept] at hk
    obtain ⟨ts, h1, h⟩ := Outcome.bind_eq_ok.mp h
    simp only [Outcome.ok.injEq] at h
    subst h
    obtain ⟨hw, hs⟩ := Expr.inferFields_sound (δ := δ) hf fs Γ ts hΓ hk h1
    refine ⟨.record hw, fun s v ha he => ?_⟩
    simp only [eval] at he
    obtain ⟨vs, hv, he⟩ := Panicky.bind_eq_ok.mp he
    simp only [Panicky.ok.injEq] at he
    subst he
    simp only [Value.HasType]
    exact ⟨ts, rfl, hs s vs ha hv⟩
  | .recordProj head l, Γ, t, hΓ, hk, h => by
    simp only [inferType] at h
    simp only [Kept] at hk
    obtain ⟨t0, h1, h⟩ := Outcome.bind_eq_ok.mp h
    obtain ⟨ts, rfl, hi⟩ := ValueType.recordProjI_eq h
    obtain ⟨hw, hs⟩ := Expr.infer_sound (δ := δ) hf head Γ _ hΓ hk h1
    cases hw with
    | record hw =>
      refine ⟨hw.find hi, fun s v ha he => ?_⟩
      simp only [eval] at he
      obtain ⟨v0, hv, he⟩ := Panicky.bind_eq_ok.mp he
      exact Value.HasType.recordProj hf (hs s v0 ha hv).coerceMapped hi he
  | .variant label e, Γ, t, hΓ, hk, h => by
    simp only [inferType] at h
    simp only [Kept] at hk
    obtain ⟨t0, h1, h⟩ := Outcome.bind_eq_ok.mp h
    simp only [Outcome.ok.injEq] at h
    subst h
    obtain ⟨hw, hs⟩ := Expr.infer_sound (δ := δ) hf e Γ t0 hΓ hk h1
    refine ⟨.union (.cons (fun _ h => nomatch h) .nil) (.cons hw .nil), fun s v ha he => ?_⟩
    simp only [eval] at he
    obtain ⟨v0, hv, he⟩ := Panicky.bind_eq_ok.mp he
    simp only [Panicky.ok.injEq] at he
    subst he
    simp only [Value.HasType]
    exact ⟨_, t0, rfl, by simp [TMap.get], (hs s v0 ha hv).coerceMapped⟩
  | .seq es, Γ, t, hΓ, hk, h => by
    simp only [inferType] at h
    simp only [Kept] at hk
    obtain ⟨t0, h1, h⟩ := Outcome.bind_eq_ok.mp h
    simp only [Outcome.ok.injEq] at h
    subst h
    obtain ⟨hw, _, hs⟩ := Expr.inferSeq_sound (δ := δ) hf es Γ .any t0 hΓ .any hk h1
    refine ⟨.seq hw, fun s v ha he => ?_⟩
    simp only [eval] at he
    obtain ⟨vs, hv, he⟩ := Panicky.bind_eq_ok.mp he
    simp only [Panicky.ok.injEq] at he
    subst he
    exact Value.hasType_seq.mpr ⟨t0, rfl, hs s vs ha hv⟩
  | .match_ head branches, Γ, t, hΓ, hk, h => by
    simp only [inferType] at h
    simp only [Kept] at hk
    split at h
    · simp only [reduceCtorEq] at h
    · obtain ⟨th, h1, h⟩ := Outcome.bind_eq_ok.mp h
      obtain ⟨hw, hs⟩ := Expr.infer_sound (δ := δ) hf head Γ th hΓ hk.1 h1
      obtain ⟨hw', _, hs'⟩ := Expr.inferBranches_sound (δ := δ) hf branches Γ th .any t hΓ hw .any
        (hk.2 th h1) h
      refine ⟨hw', fun s v ha he => ?_⟩
      simp only [eval] at he
      obtain ⟨v0, hv, he⟩ := Panicky.bind_eq_ok.mp he
      exact hs' s v0 v ha (hs s v0 ha hv) he
  | .destructure head pat body, Γ, t, hΓ, hk, h => by
    simp only [inferType] at h
    simp only [Kept] at hk
    obtain ⟨th, h1, h⟩ := Outcome.bind_eq_ok.mp h
    obtain ⟨Γ', h2, h⟩ := Outcome.bind_eq_ok.mp h
    obtain ⟨hw, hs⟩ := Expr.infer_sound (δ := δ) hf head Γ th hΓ hk.1 h1
    obtain ⟨hw', hs'⟩ := Expr.infer_sound (δ := δ) hf body Γ' t (Pattern.build_wf pat th Γ Γ' h2 hw hΓ)
      (hk.2 th Γ' h1 h2) h
    refine ⟨hw', fun s v ha he => ?_⟩
    simp only [eval] at he
    obtain ⟨v0, hv, he⟩ := Panicky.bind_eq_ok.mp he
    split at he
    · rename_i bs hbs
      obtain ⟨r, hr, he⟩ := Panicky.bind_eq_ok.mp he
      simp only [Panicky.ok.injEq] at he
      subst he
      exact (hs' _ r (Pattern.matches_agrees h2 hbs (hs s v0 ha hv) ha) hr).coerceMapped
    · simp only [reduceCtorEq] at he
  | .lambda _ _, Γ, t, hΓ, hk, h => by
    simp only [inferType, reduceCtorEq] at h
  | .intRel r x y, Γ, t, hΓ, hk, h => by
    simp only [inferType] at h
    obtain ⟨t1, h1, h⟩ := Outcome.bind_eq_ok.mp h
    obtain ⟨t2, h2, h⟩ := Outcome.bind_eq_ok.mp h
    obtain ⟨t3, h3, h⟩ := Outcome.bind_eq_ok.mp h
    obtain ⟨_, rfl⟩ := ValueType.needNumeric_eq h
    refine ⟨.base, fun s v ha he => ?_⟩
    simp only [eval] at he
    obtain ⟨v1, hv1, he⟩ := Panicky.bind_eq_ok.mp he
    obtain ⟨v2, hv2, he⟩ := Panicky.bind_eq_ok.mp he
    exact Value.intRel_sound he
  | .arith op x y, Γ, t, hΓ, hk, h => by
    simp only [inferType] at h
    simp only [Kept] at hk
    obtain ⟨t1, h1, h⟩ := Outcome.bind_eq_ok.mp h
    obtain ⟨t2, h2, h⟩ := Outcome.bind_eq_ok.mp h
    obtain ⟨w1, s1⟩ := Expr.infer_sound (δ := δ) hf x Γ t1 hΓ hk.1 h1
    obtain ⟨w2, s2⟩ := Expr.infer_sound (δ := δ) hf y Γ t2 hΓ hk.2 h2
    refine ⟨ValueType.arithI_wf w1 w2 h, fun s v ha he => ?_⟩
    simp only [eval] at he
    obtain ⟨v1, hv1, he⟩ := Panicky.bind_eq_ok.mp he
    obtain ⟨v2, hv2, he⟩ := Panicky.bind_eq_ok.mp he
    exact Value.arith_sound w1 w2 h (s1 s v1 ha hv1).coerceMapped he
  | .unary op x, Γ, t, hΓ, hk, h => by
    simp only [inferType] at h
    simp only [Kept] at hk
    obtain ⟨t1, h1, h⟩ := Outcome.bind_eq_ok.mp h
    obtain ⟨w1, s1⟩ := Expr.infer_sound (δ := δ) hf x Γ t1 hΓ hk h1
    refine ⟨ValueType.unaryI_wf w1 h, fun s v ha he => ?_⟩
    simp only [eval] at he
    obtain ⟨v1, hv1, he⟩ := Panicky.bind_eq_ok.mp he
    exact Value.unary_sound w1 h (s1 s v1 ha hv1).coerceMapped he
  | .asNum w x, Γ, t, hΓ, hk, h => by
    simp only [inferType] at h
    obtain ⟨t1, h1, h⟩ := Outcome.bind_eq_ok.mp h
    obtain ⟨_, rfl⟩ := ValueType.needNumeric_eq h
    refine ⟨.base, fun s v ha he => ?_⟩
    simp only [eval] at he
    obtain ⟨v1, hv1, he⟩ := Panicky.bind_eq_ok.mp he
    unfold castTo at he
    split at he
    · exact Value.hasType_mkNum he
    · simp only [reduceCtorEq] at he
  | .asChar x, Γ, t, hΓ, hk, h => by
    simp only [inferType] at h
    obtain ⟨t1, h1, h⟩ := Outcome.bind_eq_ok.mp h
    obtain ⟨_, rfl⟩ := ValueType.needNumeric_eq h
    refine ⟨.base, fun s v ha he => ?_⟩
    simp only [eval] at he
    obtain ⟨v1, hv1, he⟩ := Panicky.bind_eq_ok.mp he
    unfold castChar at he
    split at he
    · split at he <;> simp only [reduceCtorEq, Panicky.ok.injEq] at he
      subst he
      simp only [Value.HasType]
    · simp only [reduceCtorEq] at he
  | .fromBytes w be x, Γ, t, hΓ, hk, h => by
    simp only [inferType] at h
    obtain ⟨t1, h1, h⟩ := Outcome.bind_eq_ok.mp h
    obtain ⟨_, _, h⟩ := Outcome.bind_eq_ok.mp h
    simp only [Outcome.ok.injEq] at h
    subst h
    refine ⟨.base, fun s v ha he => ?_⟩
    simp only [eval] at he
    obtain ⟨v1, hv1, he⟩ := Panicky.bind_eq_ok.mp he
    unfold wordOf at he
    split at he
    · split at he
      · split at he
        · exact Value.hasType_mkNum he
        · simp only [reduceCtorEq] at he
      · simp only [reduceCtorEq] at he
    · simp only [reduceCtorEq] at he
  | .seqLength x, Γ, t, hΓ, hk, h => by
    simp only [inferType] at h
    obtain ⟨t1, h1, h⟩ := Outcome.bind_eq_ok.mp h
    obtain ⟨_, _, h⟩ := Outcome.bind_eq_ok.mp h
    simp only [Outcome.ok.injEq] at h
    subst h
    refine ⟨.base, fun s v ha he => ?_⟩
    simp only [eval] at he
    obtain ⟨v1, hv1, he⟩ := Panicky.bind_eq_ok.mp he
    unfold lengthOf at he
    split at he
    · exact Value.hasType_mkNum he
    · simp only [reduceCtorEq] at he
  | .seqIx x i, Γ, t, hΓ, hk, h => by
    simp only [inferType] at h
    simp only [Kept] at hk
    obtain ⟨ts, h1, h⟩ := Outcome.bind_eq_ok.mp h
    obtain ⟨t1, h2, h⟩ := Outcome.bind_eq_ok.mp h
    rw [ValueType.elemI_eq h2] at h1
    obtain ⟨ti, h3, h⟩ := Outcome.bind_eq_ok.mp h
    obtain ⟨_, _, h⟩ := Outcome.bind_eq_ok.mp h
    simp only [Outcome.ok.injEq] at h
    subst h
    obtain ⟨w1, s1⟩ := Expr.infer_sound (δ := δ) hf x Γ _ hΓ hk.1 h1
    refine ⟨w1.elem, fun s v ha he => ?_⟩
    simp only [eval] at he
    obtain ⟨v1, hv1, he⟩ := Panicky.bind_eq_ok.mp he
    obtain ⟨v2, hv2, he⟩ := Panicky.bind_eq_ok.mp he
    obtain ⟨n, hn, he⟩ := Panicky.bind_eq_ok.mp he
    exact Value.hasType_indexOf (s1 s v1 ha hv1).coerceMapped he
  | .subSeq x a n, Γ, t, hΓ, hk, h => by
    simp only [inferType] at h
    simp only [Kept] at hk
    obtain ⟨ts, h1, h⟩ := Outcome.bind_eq_ok.mp h
    obtain ⟨t1, h2, h⟩ := Outcome.bind_eq_ok.mp h
    rw [ValueType.elemI_eq h2] at h1
    obtain ⟨_, _, h⟩ := Outcome.bind_eq_ok.mp h
    obtain ⟨_, _, h⟩ := Outcome.bind_eq_ok.mp h
    obtain ⟨_, _, h⟩ := Outcome.bind_eq_ok.mp h
    obtain ⟨_, _, h⟩ := Outcome.bind_eq_ok.mp h
    simp only [Outcome.ok.injEq] at h
    subst h
    obtain ⟨w1, s1⟩ := Expr.infer_sound (δ := δ) hf x Γ _ hΓ hk.1 h1
    refine ⟨w1, fun s v ha he => ?_⟩
    simp only [eval] at he
    obtain ⟨v1, hv1, he⟩ := Panicky.bind_eq_ok.mp he
    obtain ⟨_, _, he⟩ := Panicky.bind_eq_ok.mp he
    obtain ⟨_, _, he⟩ := Panicky.bind_eq_ok.mp he
    obtain ⟨_, _, he⟩ := Panicky.bind_eq_ok.mp he
    obtain ⟨_, _, he⟩ := Panicky.bind_eq_ok.mp he
    exact Value.hasType_subSeqOf (s1 s v1 ha hv1).coerceMapped he
  | .subSeqInflate x a n, Γ, t, hΓ, hk, h => by
    simp only [inferType] at h
    simp only [Kept] at hk
    obtain ⟨ts, h1, h⟩ := Outcome.bind_eq_ok.mp h
    obtain ⟨t1, h2, h⟩ := Outcome.bind_eq_ok.mp h
    rw [ValueType.elemI_eq h2] at h1
    obtain ⟨_, _, h⟩ := Outcome.bind_eq_ok.mp h
    obtain ⟨_, _, h⟩ := Outcome.bind_eq_ok.mp h
    obtain ⟨_, _, h⟩ := Outcome.bind_eq_ok.mp h
    obtain ⟨_, _, h⟩ := Outcome.bind_eq_ok.mp h
    simp only [Outcome.ok.injEq] at h
    subst h
    obtain ⟨w1, s1⟩ := Expr.infer_sound (δ := δ) hf x Γ _ hΓ hk.1 h1
    refine ⟨w1, fun s v ha he => ?_⟩
    simp only [eval] at he
    obtain ⟨v1, hv1, he⟩ := Panicky.bind_eq_ok.mp he
    obtain ⟨_, _, he⟩ := Panicky.bind_eq_ok.mp he
    obtain ⟨_, _, he⟩ := Panicky.bind_eq_ok.mp he
    obtain ⟨_, _, he⟩ := Panicky.bind_eq_ok.mp he
    obtain ⟨_, _, he⟩ := Panicky.bind_eq_ok.mp he
    exact Value.hasType_inflateOf (s1 s v1 ha hv1).coerceMapped he
  | .flatMap f x, Γ, t, hΓ, hk, h => by
    match f, hk, h with
    | .lambda name body, hk, h =>
      simp only [inferType] at h
      simp only [Kept] at hk
      obtain ⟨ts, h1, h⟩ := Outcome.bind_eq_ok.mp h
      obtain ⟨t1, h2, h⟩ := Outcome.bind_eq_ok.mp h
      rw [ValueType.elemI_eq h2] at h1
      obtain ⟨tr, h3, h⟩ := Outcome.bind_eq_ok.mp h
      obtain ⟨t2, h4, h⟩ := Outcome.bind_eq_ok.mp h
      rw [ValueType.elemI_eq h4] at h3
      simp only [Outcome.ok.injEq] at h
      subst h
      obtain ⟨w1, s1⟩ := Expr.infer_sound (δ := δ) hf x Γ _ hΓ hk.1 h1
      obtain ⟨w2, s2⟩ := Expr.infer_sound (δ := δ) hf body _ _ (hΓ.cons w1.elem) (hk.2 t1 h1) h3
      refine ⟨w2, fun s v ha he => ?_⟩
      simp only [eval] at he
      obtain ⟨v1, hv1, he⟩ := Panicky.bind_eq_ok.mp he
      split at he
      · rename_i vs hvs
        obtain ⟨r, hr, he⟩ := Panicky.bind_eq_ok.mp he
        simp only [Panicky.ok.injEq] at he
        subst he
        refine Value.hasType_seq.mpr ⟨t2, rfl, ?_⟩
        refine Value.flatMapLoop_all (t := t1) ?_ _ [] r (fun _ h => nomatch h)
          ((s1 s v1 ha hv1).coerceMapped.items hvs) hr
        intro a r hta hra
        obtain ⟨v', hv', rfl⟩ := Expr.evalLambda_eq hra
        exact (s2 _ v' (ha.single hta) hv').coerceMapped
      · simp only [reduceCtorEq] at he
  | .flatMapAccum f accum ty x, Γ, t, hΓ, hk, h => by
    match f, hk, h with
    | .lambda name body, hk, h =>
      simp only [inferType] at h
      simp only [Kept] at hk
      obtain ⟨ts, h1, h⟩ := Outcome.bind_eq_ok.mp h
      obtain ⟨t1, h2, h⟩ := Outcome.bind_eq_ok.mp h
      rw [ValueType.elemI_eq h2] at h1
      obtain ⟨t0, h3, h⟩ := Outcome.bind_eq_ok.mp h
      obtain ⟨ta, h4, h⟩ := Outcome.bind_eq_ok.mp h
      have h4 := ValueType.unifyI_eq h4
      obtain ⟨tr, h5, h⟩ := Outcome.bind_eq_ok.mp h
      split at h
      · rename_i tacc t2
        obtain ⟨_, _, h⟩ := Outcome.bind_eq_ok.mp h
        simp only [Outcome.ok.injEq] at h
        subst h
        obtain ⟨kx, ka, kty, kb⟩ := hk
        obtain ⟨kb, kle⟩ := kb t1 t0 ta h1 h3 h4
        have kle := kle tacc t2 h5
        obtain ⟨w1, s1⟩ := Expr.infer_sound (δ := δ) hf x Γ _ hΓ kx h1
        obtain ⟨w0, s0⟩ := Expr.infer_sound (δ := δ) hf accum Γ _ hΓ ka h3
        obtain ⟨wa, la, _⟩ := ValueType.unify_upper t0 ty ta w0 kty h4
        obtain ⟨w2, s2⟩ := Expr.infer_sound (δ := δ) hf body _ _
          (hΓ.cons (.tuple (.cons wa (.cons w1.elem .nil)))) kb h5
        refine ⟨?_, fun s v ha he => ?_⟩
        · cases w2 with
          | tuple w2 => cases w2 with
            | cons _ w2 => cases w2 with
              | cons w2 _ => exact w2
        · simp only [eval] at he
          obtain ⟨v1, hv1, he⟩ := Panicky.bind_eq_ok.mp he
          obtain ⟨vs, hvs, he⟩ := Panicky.bind_eq_ok.mp he
          obtain ⟨a, hva, he⟩ := Panicky.bind_eq_ok.mp he
          obtain ⟨r, hr, he⟩ := Panicky.bind_eq_ok.mp he
          simp only [Panicky.ok.injEq] at he
          subst he
          have hx := (s1 s v1 ha hv1).coerceMapped
          rw [Expr.needSeq_eq hvs] at hx
          obtain ⟨u, e, hx⟩ := Value.hasType_seq.mp hx
          cases e
          refine Value.hasType_seq.mpr ⟨t2, rfl, ?_⟩
          refine Value.flatMapAccumLoop_all (t := t1) (fun _ h => h.mono kle) ?_ _ _ [] r ((s0 s a ha hva).coerceMapped.mono la)
            (fun _ h => nomatch h) hx hr
          intro b r hta hra
          obtain ⟨v', hv', rfl⟩ := Expr.evalLambda_eq hra
          exact (s2 _ v' (ha.single hta) hv').coerceMapped
      · simp only [reduceCtorEq] at h
  | .leftFold f accum ty x, Γ, t, hΓ, hk, h => by
    match f, hk, h with
    | .lambda name body, hk, h =>
      simp only [inferType] at h
      simp only [Kept] at hk
      obtain ⟨ts, h1, h⟩ := Outcome.bind_eq_ok.mp h
      obtain ⟨t1, h2, h⟩ := Outcome.bind_eq_ok.mp h
      rw [ValueType.elemI_eq h2] at h1
      obtain ⟨t0, h3, h⟩ := Outcome.bind_eq_ok.mp h
      obtain ⟨ta, h4, h⟩ := Outcome.bind_eq_ok.mp h
      have h4 := ValueType.unifyI_eq h4
      obtain ⟨tr, h5, h⟩ := Outcome.bind_eq_ok.mp h
      have h := ValueType.unifyI_eq h
      obtain ⟨kx, ka, kty, kb⟩ := hk
      obtain ⟨kb, kle⟩ := kb t1 t0 ta h1 h3 h4
      have kle := kle tr h5
      obtain ⟨w1, s1⟩ := Expr.infer_sound (δ := δ) hf x Γ _ hΓ kx h1
      obtain ⟨w0, s0⟩ := Expr.infer_sound (δ := δ) hf accum Γ _ hΓ ka h3
      obtain ⟨wa, la, _⟩ := ValueType.unify_upper t0 ty ta w0 kty h4
      obtain ⟨w2, s2⟩ := Expr.infer_sound (δ := δ) hf body _ _
        (hΓ.cons (.tuple (.cons wa (.cons w1.elem .nil)))) kb h5
      obtain ⟨wt, _, lt⟩ := ValueType.unify_upper tr ta t w2 wa h
      refine ⟨wt, fun s v ha he => ?_⟩
      simp only [eval] at he
      obtain ⟨v1, hv1, he⟩ := Panicky.bind_eq_ok.mp he
      obtain ⟨vs, hvs, he⟩ := Panicky.bind_eq_ok.mp he
      obtain ⟨a, hva, he⟩ := Panicky.bind_eq_ok.mp he
      have hx := (s1 s v1 ha hv1).coerceMapped
      rw [Expr.needSeq_eq hvs] at hx
      obtain ⟨u, e, hx⟩ := Value.hasType_seq.mp hx
      cases e
      refine Value.HasType.mono (Value.leftFoldLoop_all (t := t1) (fun _ h => h.mono kle) ?_ _ _ v
        ((s0 s a ha hva).coerceMapped.mono la) hx he) lt
      intro b r hta hra
      obtain ⟨v', hv', rfl⟩ := Expr.evalLambda_eq hra
      exact (s2 _ v' (ha.single hta) hv').coerceMapped
  | .findByKey sorted f query x, Γ, t, hΓ, hk, h => by
    match f, hk, h with
    | .lambda name body, hk, h =>
      simp only [inferType] at h
      simp only [Kept] at hk
      obtain ⟨ts, h1, h⟩ := Outcome.bind_eq_ok.mp h
      obtain ⟨t1, h2, h⟩ := Outcome.bind_eq_ok.mp h
      rw [ValueType.elemI_eq h2] at h1
      obtain ⟨tq, h3, h⟩ := Outcome.bind_eq_ok.mp h
      obtain ⟨tk, h4, h⟩ := Outcome.bind_eq_ok.mp h
      obtain ⟨tu, h5, h⟩ := Outcome.bind_eq_ok.mp h
      split at h
      · split at h <;> simp only [reduceCtorEq, Outcome.ok.injEq] at h
        subst h
        obtain ⟨w1, s1⟩ := Expr.infer_sound (δ := δ) hf x Γ _ hΓ hk.1 h1
        refine ⟨.option w1.elem, fun s v ha he => ?_⟩
        simp only [eval] at he
        obtain ⟨v1, hv1, he⟩ := Panicky.bind_eq_ok.mp he
        obtain ⟨vs, hvs, he⟩ := Panicky.bind_eq_ok.mp he
        obtain ⟨q, hq, he⟩ := Panicky.bind_eq_ok.mp he
        have hx := (s1 s v1 ha hv1).coerceMapped
        rw [Expr.needSeq_eq hvs] at hx
        exact Value.hasType_findByKeyOf hx he
      · simp only [reduceCtorEq] at h
  | .flatMapList f ty x, Γ, t, hΓ, hk, h => by
    match f, hk, h with
    | .lambda name body, hk, h =>
      simp only [inferType] at h
      simp only [Kept] at hk
      obtain ⟨ts, h1, h⟩ := Outcome.bind_eq_ok.mp h
      obtain ⟨t1, h2, h⟩ := Outcome.bind_eq_ok.mp h
      rw [ValueType.elemI_eq h2] at h1
      obtain ⟨tr, h3, h⟩ := Outcome.bind_eq_ok.mp h
      obtain ⟨t2, h4, h⟩ := Outcome.bind_eq_ok.mp h
      rw [ValueType.elemI_eq h4] at h3
      simp only [Outcome.ok.injEq] at h
      subst h
      obtain ⟨kx, kty, kb⟩ := hk
      obtain ⟨kb, kle⟩ := kb t1 h1
      have kle := kle t2 h3
      obtain ⟨w1, s1⟩ := Expr.infer_sound (δ := δ) hf x Γ _ hΓ kx h1
      obtain ⟨w2, s2⟩ := Expr.infer_sound (δ := δ) hf body _ _
        (hΓ.cons (.tuple (.cons (.seq kty) (.cons w1.elem .nil)))) kb h3
      refine ⟨w2, fun s v ha he => ?_⟩
      simp only [eval] at he
      obtain ⟨v1, hv1, he⟩ := Panicky.bind_eq_ok.mp he
      obtain ⟨vs, hvs, he⟩ := Panicky.bind_eq_ok.mp he
      obtain ⟨r, hr, he⟩ := Panicky.bind_eq_ok.mp he
      simp only [Panicky.ok.injEq] at he
      subst he
      have hx := (s1 s v1 ha hv1).coerceMapped
      rw [Expr.needSeq_eq hvs] at hx
      obtain ⟨u, e, hx⟩ := Value.hasType_seq.mp hx
      cases e
      refine Value.hasType_seq.mpr ⟨t2, rfl, ?_⟩
      refine Value.flatMapListLoop_all (t := t1) (fun _ h => h.mono kle) ?_ _ [] r (fun _ h => nomatch h) hx hr
      intro b r hta hra
      obtain ⟨v', hv', rfl⟩ := Expr.evalLambda_eq hra
      exact (s2 _ v' (ha.single hta) hv').coerceMapped
  | .enumFromTo a b, Γ, t, hΓ, hk, h => by
    simp only [inferType] at h
    simp only [Kept] at hk
    obtain ⟨t1, h1, h⟩ := Outcome.bind_eq_ok.mp h
    obtain ⟨t2, h2, h⟩ := Outcome.bind_eq_ok.mp h
    split at h
    · rename_i hn
      obtain ⟨u, h3, h⟩ := Outcome.bind_eq_ok.mp h
      simp only [Outcome.ok.injEq] at h
      subst h
      obtain ⟨w1, _⟩ := Expr.infer_sound (δ := δ) hf a Γ _ hΓ hk.2.1 h1
      obtain ⟨w2, _⟩ := Expr.infer_sound (δ := δ) hf b Γ _ hΓ hk.2.2 h2
      obtain ⟨wu, l1, _⟩ := ValueType.unify_upper t1 t2 u w1 w2 (ValueType.unifyI_eq h3)
      refine ⟨.seq wu, fun s v ha he => ?_⟩
      simp only [eval] at he
      obtain ⟨_, _, he⟩ := Panicky.bind_eq_ok.mp he
      obtain ⟨_, _, he⟩ := Panicky.bind_eq_ok.mp he
      obtain ⟨_, _, he⟩ := Panicky.bind_eq_ok.mp he
      obtain ⟨_, _, he⟩ := Panicky.bind_eq_ok.mp he
      obtain ⟨_, _, he⟩ := Panicky.bind_eq_ok.mp he
      obtain ⟨_, _, he⟩ := Panicky.bind_eq_ok.mp he
      simp only [Panicky.ok.injEq] at he
      subst he
      exact Value.hasType_range.mpr ⟨u, rfl, hk.1, fun _ => l1.numeric hn⟩
    · simp only [reduceCtorEq] at h
  | .dup n x, Γ, t, hΓ, hk, h => by
    simp only [inferType] at h
    simp only [Kept] at hk
    obtain ⟨tc, h1, h⟩ := Outcome.bind_eq_ok.mp h
    obtain ⟨_, _, h⟩ := Outcome.bind_eq_ok.mp h
    obtain ⟨tx, h2, h⟩ := Outcome.bind_eq_ok.mp h
    simp only [Outcome.ok.injEq] at h
    subst h
    obtain ⟨w1, s1⟩ := Expr.infer_sound (δ := δ) hf x Γ _ hΓ hk.2 h2
    refine ⟨.seq w1, fun s v ha he => ?_⟩
    simp only [eval] at he
    obtain ⟨_, _, he⟩ := Panicky.bind_eq_ok.mp he
    obtain ⟨_, _, he⟩ := Panicky.bind_eq_ok.mp he
    obtain ⟨v0, hv0, he⟩ := Panicky.bind_eq_ok.mp he
    simp only [Panicky.ok.injEq] at he
    subst he
    simp only [Value.HasType]
    exact ⟨tx, rfl, fun _ => (s1 s v0 ha hv0).coerceMapped⟩
  | .liftSome x, Γ, t, hΓ, hk, h => by
    simp only [inferType] at h
    simp only [Kept] at hk
    obtain ⟨tx, h2, h⟩ := Outcome.bind_eq_ok.mp h
    simp only [Outcome.ok.injEq] at h
    subst h
    obtain ⟨w1, s1⟩ := Expr.infer_sound (δ := δ) hf x Γ _ hΓ hk h2
    refine ⟨.option w1, fun s v ha he => ?_⟩
    simp only [eval] at he
    obtain ⟨v0, hv0, he⟩ := Panicky.bind_eq_ok.mp he
    simp only [Panicky.ok.injEq] at he
    subst he
    simp only [Value.HasType]
    exact ⟨tx, rfl, (s1 s v0 ha hv0).coerceMapped⟩
  | .liftNone, Γ, t, hΓ, hk, h => by
    simp only [inferType, Outcome.ok.injEq] at h
    subst h
    refine ⟨.option .any, fun s v ha he => ?_⟩
    simp only [eval, Panicky.ok.injEq] at he
    subst he
    simp only [Value.HasType]
    exact ⟨_, rfl⟩
  | .append x y, Γ, t, hΓ, hk, h => by
    simp only [inferType] at h
    simp only [Kept] at hk
    obtain ⟨ts1, h1, h⟩ := Outcome.bind_eq_ok.mp h
    obtain ⟨ts2, h2, h⟩ := Outcome.bind_eq_ok.mp h
    obtain ⟨t1, h3, h⟩ := Outcome.bind_eq_ok.mp h
    obtain ⟨t2, h4, h⟩ := Outcome.bind_eq_ok.mp h
    obtain ⟨u, h5, h⟩ := Outcome.bind_eq_ok.mp h
    rw [ValueType.elemI_eq h3] at h1
    rw [ValueType.elemI_eq h4] at h2
    simp only [Outcome.ok.injEq] at h
    subst h
    obtain ⟨w1, s1⟩ := Expr.infer_sound (δ := δ) hf x Γ _ hΓ hk.1 h1
    obtain ⟨w2, s2⟩ := Expr.infer_sound (δ := δ) hf y Γ _ hΓ hk.2 h2
    obtain ⟨wu, l1, l2⟩ := ValueType.unify_upper t1 t2 u w1.elem w2.elem (ValueType.unifyI_eq h5)
    refine ⟨.seq wu, fun s v ha he => ?_⟩
    simp only [eval] at he
    obtain ⟨v1, hv1, he⟩ := Panicky.bind_eq_ok.mp he
    obtain ⟨v2, hv2, he⟩ := Panicky.bind_eq_ok.mp he
    exact Value.hasType_appendOf ((s1 s v1 ha hv1).coerceMapped.mono (.seq l1))
      ((s2 s v2 ha hv2).coerceMapped.mono (.seq l2)) he

theorem Expr.inferList_sound {δ : Type} {σ : Slack} (hf : σ.fallbacks ≠ .typed) : ∀ (es : List Expr)
    (Γ : TypeScope) (ts : List ValueType), Γ.WF → Expr.KeptList σ es Γ → Expr.inferList es Γ = .ok ts →
    WFList ts ∧ ∀ (s : Scope δ) (vs : List Value), s.Agrees σ Γ → Expr.evalValues es s = .ok vs →
      Value.HaveTypes σ vs ts
  | [], Γ, ts, hΓ, hk, h => by
    simp only [inferList, Outcome.ok.injEq] at h
    subst h
    refine ⟨.nil, fun s vs ha he => ?_⟩
    simp only [evalValues, Panicky.ok.injEq] at he
    subst he; simp only [Value.HaveTypes]
  | e :: es, Γ, ts, hΓ, hk, h => by
    simp only [inferList] at h
    simp only [KeptList] at hk
    obtain ⟨t1, h1, h⟩ := Outcome.bind_eq_ok.mp h
    obtain ⟨ts', h2, h⟩ := Outcome.bind_eq_ok.mp h
    simp only [Outcome.ok.injEq] at h
    subst h
    obtain ⟨w1, s1⟩ := Expr.infer_sound (δ := δ) hf e Γ _ hΓ hk.1 h1
    obtain ⟨w2, s2⟩ := Expr.inferList_sound (δ := δ) hf es Γ _ hΓ hk.2 h2
    refine ⟨.cons w1 w2, fun s vs ha he => ?_⟩
    simp only [evalValues] at he
    obtain ⟨v1, hv1, he⟩ := Panicky.bind_eq_ok.mp he
    obtain ⟨v2, hv2, he⟩ := Panicky.bind_eq_ok.mp he
    simp only [Panicky.ok.injEq] at he
    subst he
    simp only [Value.HaveTypes]
    exact ⟨(s1 s v1 ha hv1).coerceMapped, s2 s v2 ha hv2⟩

theorem Expr.inferFields_sound {δ : Type} {σ : Slack} (hf : σ.fallbacks ≠ .typed) :
    ∀ (fs : List (String × Expr)) (Γ : TypeScope) (ts : List (String × ValueType)), Γ.WF →
    Expr.KeptFields σ fs Γ → Expr.inferFields fs Γ = .ok ts →
    WFMap ts ∧ ∀ (s : Scope δ) (vs : List (String × Value)), s.Agrees σ Γ →
      Expr.evalFields fs s = .ok vs → Value.FieldsHave σ vs ts
  | [], Γ, ts, hΓ, hk, h => by
    simp only [inferFields, Outcome.ok.injEq] at h
    subst h
    refine ⟨.nil, fun s vs ha he => ?_⟩
    simp only [evalFields, Panicky.ok.injEq] at he
    subst he; simp only [Value.FieldsHave]
  | (l, e) :: es, Γ, ts, hΓ, hk, h => by
    simp only [inferFields] at h
    simp only [KeptFields] at hk
    obtain ⟨t1, h1, h⟩ := Outcome.bind_eq_ok.mp h
    obtain ⟨ts', h2, h⟩ := Outcome.bind_eq_ok.mp h
    simp only [Outcome.ok.injEq] at h
    subst h
    obtain ⟨w1, s1⟩ := Expr.infer_sound (δ := δ) hf e Γ _ hΓ hk.1 h1
    obtain ⟨w2, s2⟩ := Expr.inferFields_sound (δ := δ) hf es Γ _ hΓ hk.2 h2
    refine ⟨.cons w1 w2, fun s vs ha he => ?_⟩
    simp only [evalFields] at he
    obtain ⟨v1, hv1, he⟩ := Panicky.bind_eq_ok.mp he
    obtain ⟨v2, hv2, he⟩ := Panicky.bind_eq_ok.mp he
    simp only [Panicky.ok.injEq] at he
    subst he
    simp only [Value.FieldsHave]
    exact ⟨trivial, s1 s v1 ha hv1, s2 s v2 ha hv2⟩

theorem Expr.inferSeq_sound {δ : Type} {σ : Slack} (hf : σ.fallbacks ≠ .typed) : ∀ (es : List Expr)
    (Γ : TypeScope) (acc t : ValueType), Γ.WF → acc.WF → Expr.KeptList σ es Γ →
    Expr.inferSeq es Γ acc = .ok t →
    t.WF ∧ Le acc t ∧ ∀ (s : Scope δ) (vs : List Value), s.Agrees σ Γ → Expr.evalValues es s = .ok vs →
      ∀ v ∈ vs, v.HasType σ t
  | [], Γ, acc, t, hΓ, hacc, hk, h => by
    simp only [inferSeq, Outcome.ok.injEq] at h
    subst h
    refine ⟨hacc, .refl hacc, fun s vs ha he => ?_⟩
    simp only [evalValues, Panicky.ok.injEq] at he
    subst he; intro v hv; exact nomatch hv
  | e :: es, Γ, acc, t, hΓ, hacc, hk, h => by
    simp only [inferSeq] at h
    simp only [KeptList] at hk
    obtain ⟨t1, h1, h⟩ := Outcome.bind_eq_ok.mp h
    obtain ⟨acc', h2, h⟩ := Outcome.bind_eq_ok.mp h
    obtain ⟨w1, s1⟩ := Expr.infer_sound (δ := δ) hf e Γ _ hΓ hk.1 h1
    obtain ⟨wacc, l1, l2⟩ := ValueType.unify_upper acc t1 acc' hacc w1 (ValueType.unifyI_eq h2)
    obtain ⟨w2, l3, s2⟩ := Expr.inferSeq_sound (δ := δ) hf es Γ acc' t hΓ wacc hk.2 h
    refine ⟨w2, l1.trans l3, fun s vs ha he => ?_⟩
    simp only [evalValues] at he
    obtain ⟨v1, hv1, he⟩ := Panicky.bind_eq_ok.mp he
    obtain ⟨v2, hv2, he⟩ := Panicky.bind_eq_ok.mp he
    simp only [Panicky.ok.injEq] at he
    subst he
    intro v hv
    rcases List.mem_cons.mp hv with rfl | hv
    · exact (s1 s v1 ha hv1).coerceMapped.mono (l2.trans l3)
    · exact s2 s v2 ha hv2 v hv

theorem Expr.inferBranches_sound {δ : Type} {σ : Slack} (hf : σ.fallbacks ≠ .typed) :
    ∀ (bs : List (Pattern × Expr)) (Γ : TypeScope) (th acc t : ValueType), Γ.WF → th.WF → acc.WF →
    Expr.KeptBranches σ bs Γ th → Expr.inferBranches bs Γ th acc = .ok t →
    t.WF ∧ Le acc t ∧ ∀ (s : Scope δ) (v0 v : Value), s.Agrees σ Γ → v0.HasType σ th →
      Expr.evalBranches bs s v0 = .ok v → v.HasType σ t
  | [], Γ, th, acc, t, hΓ, hth, hacc, hk, h => by
    simp only [inferBranches, Outcome.ok.injEq] at h
    subst h
    refine ⟨hacc, .refl hacc, fun s v0 v ha hv he => ?_⟩
    simp only [evalBranches, reduceCtorEq] at he
  | (p, e) :: rest, Γ, th, acc, t, hΓ, hth, hacc, hk, h => by
    simp only [inferBranches] at h
    simp only [KeptBranches] at hk
    obtain ⟨Γ', h0, h⟩ := Outcome.bind_eq_ok.mp h
    obtain ⟨t1, h1, h⟩ := Outcome.bind_eq_ok.mp h
    obtain ⟨acc', h2, h⟩ := Outcome.bind_eq_ok.mp h
    obtain ⟨w1, s1⟩ := Expr.infer_sound (δ := δ) hf e Γ' _ (Pattern.build_wf p th Γ Γ' h0 hth hΓ)
      (hk.1 Γ' h0) h1
    obtain ⟨wacc, l1, l2⟩ := ValueType.unify_upper acc t1 acc' hacc w1 (ValueType.unifyI_eq h2)
    obtain ⟨w2, l3, s2⟩ := Expr.inferBranches_sound (δ := δ) hf rest Γ th acc' t hΓ hth wacc hk.2 h
    refine ⟨w2, l1.trans l3, fun s v0 v ha hv he => ?_⟩
    unfold evalBranches at he
    split at he
    · rename_i bs hbs
      obtain ⟨r, hr, he⟩ := Panicky.bind_eq_ok.mp he
      simp only [Panicky.ok.injEq] at he
      subst he
      exact (s1 _ r (Pattern.matches_agrees h0 hbs hv ha) hr).coerceMapped.mono (l2.trans l3)
    · exact s2 s v0 v ha hv he
end

mutual
theorem ValueType.Rigid.wf : ∀ {t : ValueType}, t.Rigid → t.WF
  | .any, h => nomatch h
  | .empty, h => nomatch h
  | .numericHole, h => nomatch h
  | .union _, h => nomatch h
  | .viewObj, _ => .viewObj
  | .base _, _ => .base
  | .signed _, _ => .signed
  | .phantom _, h => .phantom (ValueType.Rigid.wf (by simpa only [ValueType.Rigid] using h))
  | .tuple _, h => .tuple (ValueType.RigidList.wf (by simpa only [ValueType.Rigid] using h))
  | .record _, h => .record (ValueType.RigidFields.wf (by simpa only [ValueType.Rigid] using h))
  | .seq _, h => .seq (ValueType.Rigid.wf (by simpa only [ValueType.Rigid] using h))
  | .option _, h => .option (ValueType.Rigid.wf (by simpa only [ValueType.Rigid] using h))

theorem ValueType.RigidList.wf : ∀ {ts : List ValueType}, ValueType.RigidList ts → WFList ts
  | [], _ => .nil
  | _ :: _, h => by
    simp only [RigidList] at h
    exact .cons (ValueType.Rigid.wf h.1) (ValueType.RigidList.wf h.2)

theorem ValueType.RigidFields.wf : ∀ {ts : List (String × ValueType)}, ValueType.RigidFields ts → WFMap ts
  | [], _ => .nil
  | (_, _) :: _, h => by
    simp only [RigidFields] at h
    exact .cons (ValueType.Rigid.wf h.1) (ValueType.RigidFields.wf h.2)
end

mutual
theorem ValueType.Le.rigid : ∀ {t u : ValueType}, Le t u → t.Rigid → u = t
  | _, _, .any, h => by simp only [Rigid] at h
  | _, _, .empty _, h => by simp only [Rigid] at h
  | _, _, .numericHole _, h => by simp only [Rigid] at h
  | _, _, .viewObj, _ => rfl
  | _, _, .base, _ => rfl
  | _, _, .signed, _ => rfl
  | _, _, .phantom l, h => by simp only [Rigid] at h; rw [ValueType.Le.rigid l h]
  | _, _, .seq l, h => by simp only [Rigid] at h; rw [ValueType.Le.rigid l h]
  | _, _, .option l, h => by simp only [Rigid] at h; rw [ValueType.Le.rigid l h]
  | _, _, .tuple l, h => by simp only [Rigid] at h; rw [ValueType.LeList.rigid l h]
  | _, _, .record l, h => by simp only [Rigid] at h; rw [ValueType.LeFields.rigid l h]
  | _, _, .union _, h => by simp only [Rigid] at h

theorem ValueType.LeList.rigid : ∀ {t u : List ValueType}, LeList t u → ValueType.RigidList t → u = t
  | _, _, .nil, _ => rfl
  | _, _, .cons l ls, h => by
    simp only [RigidList] at h; rw [ValueType.Le.rigid l h.1, ValueType.LeList.rigid ls h.2]

theorem ValueType.LeFields.rigid : ∀ {t u : List (String × ValueType)}, LeFields t u →
    ValueType.RigidFields t → u = t
  | _, _, .nil, _ => rfl
  | _, _, .cons l ls, h => by
    simp only [RigidFields] at h; rw [ValueType.Le.rigid l h.1, ValueType.LeFields.rigid ls h.2]
end

theorem ValueType.unify_rigid_right {t1 t2 t : ValueType} (w1 : t1.WF) (r : t2.Rigid)
    (h : ValueType.unify t1 t2 = some t) : t = t2 ∧ Le t1 t2 := by
  obtain ⟨_, a, b⟩ := ValueType.unify_upper t1 t2 t w1 r.wf h
  have := b.rigid r
  subst this
  exact ⟨rfl, a⟩

set_option maxHeartbeats 4000000 in
mutual
theorem Expr.Plain.kept {σ : Slack} (hf : σ.fallbacks ≠ .typed) : ∀ (e : Expr) (Γ : TypeScope)
    (t : ValueType), Γ.WF → e.Plain σ → e.inferType Γ = .ok t → e.Kept σ Γ
  | .var _, _, _, _, _, _ => by simp only [Kept]
  | .bool _, _, _, _, _, _ => by simp only [Kept]
  | .lit _ _, _, _, _, _, _ => by simp only [Kept]
  | .numeric n, Γ, t, hΓ, hk, h => by
    simp only [Plain] at hk
    simp only [Kept]
    exact hk
  | .tuple es, Γ, t, hΓ, hk, h => by
    simp only [Plain] at hk
    simp only [inferType] at h
    simp only [Kept]
    obtain ⟨ts, h1, h⟩ := Outcome.bind_eq_ok.mp h
    exact Expr.PlainList.kept hf es Γ ts hΓ hk h1
  | .record fs, Γ, t, hΓ, hk, h => by
    simp only [Plain] at hk
    simp only [inferType] at h
    simp only [Kept]
    obtain ⟨ts, h1, h⟩ := Outcome.bind_eq_ok.mp h
    exact Expr.PlainFields.kept hf fs Γ ts hΓ hk h1
  | .seq es, Γ, t, hΓ, hk, h => by
    simp only [Plain] at hk
    simp only [inferType] at h
    simp only [Kept]
    obtain ⟨ts, h1, h⟩ := Outcome.bind_eq_ok.mp h
    exact Expr.PlainList.keptSeq hf es Γ _ ts hΓ hk h1
  | .tupleProj head _, Γ, t, hΓ, hk, h => by
    simp only [Plain] at hk
    simp only [inferType] at h
    simp only [Kept]
    obtain ⟨t1, h1, h⟩ := Outcome.bind_eq_ok.mp h
    exact Expr.Plain.kept hf head Γ t1 hΓ hk h1
  | .recordProj head _, Γ, t, hΓ, hk, h => by
    simp only [Plain] at hk
    simp only [inferType] at h
    simp only [Kept]
    obtain ⟨t1, h1, h⟩ := Outcome.bind_eq_ok.mp h
    exact Expr.Plain.kept hf head Γ t1 hΓ hk h1
  | .variant _ e, Γ, t, hΓ, hk, h => by
    simp only [Plain] at hk
    simp only [inferType] at h
    simp only [Kept]
    obtain ⟨t1, h1, h⟩ := Outcome.bind_eq_ok.mp h
    exact Expr.Plain.kept hf e Γ t1 hΓ hk h1
  | .unary _ x, Γ, t, hΓ, hk, h => by
    simp only [Plain] at hk
    simp only [inferType] at h
    simp only [Kept]
    obtain ⟨t1, h1, h⟩ := Outcome.bind_eq_ok.mp h
    exact Expr.Plain.kept hf x Γ t1 hΓ hk h1
  | .asNum _ x, Γ, t, hΓ, hk, h => by
    simp only [Plain] at hk
    simp only [inferType] at h
    simp only [Kept]
    obtain ⟨t1, h1, h⟩ := Outcome.bind_eq_ok.mp h
    exact Expr.Plain.kept hf x Γ t1 hΓ hk h1
  | .asChar x, Γ, t, hΓ, hk, h => by
    simp only [Plain] at hk
    simp only [inferType] at h
    simp only [Kept]
    obtain ⟨t1, h1, h⟩ := Outcome.bind_eq_ok.mp h
    exact Expr.Plain.kept hf x Γ t1 hΓ hk h1
  | .fromBytes _ _ x, Γ, t, hΓ, hk, h => by
    simp only [Plain] at hk
    simp only [inferType] at h
    simp only [Kept]
    obtain ⟨t1, h1, h⟩ := Outcome.bind_eq_ok.mp h
    exact Expr.Plain.kept hf x Γ t1 hΓ hk h1
  | .seqLength x, Γ, t, hΓ, hk, h => by
    simp only [Plain] at hk
    simp only [inferType] at h
    simp only [Kept]
    obtain ⟨t1, h1, h⟩ := Outcome.bind_eq_ok.mp h
    exact Expr.Plain.kept hf x Γ t1 hΓ hk h1
  | .liftSome x, Γ, t, hΓ, hk, h => by
    simp only [Plain] at hk
    simp only [inferType] at h
    simp only [Kept]
    obtain ⟨t1, h1, h⟩ := Outcome.bind_eq_ok.mp h
    exact Expr.Plain.kept hf x Γ t1 hΓ hk h1
  | .intRel _ x y, Γ, t, hΓ, hk, h => by
    simp only [Plain] at hk
    simp only [inferType] at h
    simp only [Kept]
    obtain ⟨t1, h1, h⟩ := Outcome.bind_eq_ok.mp h
    obtain ⟨t2, h2, h⟩ := Outcome.bind_eq_ok.mp h
    exact ⟨Expr.Plain.kept hf x Γ t1 hΓ hk.1 h1, Expr.Plain.kept hf y Γ t2 hΓ hk.2 h2⟩
  | .arith _ x y, Γ, t, hΓ, hk, h => by
    simp only [Plain] at hk
    simp only [inferType] at h
    simp only [Kept]
    obtain ⟨t1, h1, h⟩ := Outcome.bind_eq_ok.mp h
    obtain ⟨t2, h2, h⟩ := Outcome.bind_eq_ok.mp h
    exact ⟨Expr.Plain.kept hf x Γ t1 hΓ hk.1 h1, Expr.Plain.kept hf y Γ t2 hΓ hk.2 h2⟩
  | .append x y, Γ, t, hΓ, hk, h => by
    simp only [Plain] at hk
    simp only [inferType] at h
    simp only [Kept]
    obtain ⟨t1, h1, h⟩ := Outcome.bind_eq_ok.mp h
    obtain ⟨t2, h2, h⟩ := Outcome.bind_eq_ok.mp h
    exact ⟨Expr.Plain.kept hf x Γ t1 hΓ hk.1 h1, Expr.Plain.kept hf y Γ t2 hΓ hk.2 h2⟩
  | .enumFromTo x y, Γ, t, hΓ, hk, h => by
    simp only [Plain] at hk
    simp only [inferType] at h
    simp only [Kept]
    obtain ⟨t1, h1, h⟩ := Outcome.bind_eq_ok.mp h
    obtain ⟨t2, h2, h⟩ := Outcome.bind_eq_ok.mp h
    exact ⟨hk.1, Expr.Plain.kept hf x Γ t1 hΓ hk.2.1 h1, Expr.Plain.kept hf y Γ t2 hΓ hk.2.2 h2⟩
  | .seqIx x y, Γ, t, hΓ, hk, h => by
    simp only [Plain] at hk
    simp only [inferType] at h
    simp only [Kept]
    obtain ⟨t1, h1, h⟩ := Outcome.bind_eq_ok.mp h
    obtain ⟨_, _, h⟩ := Outcome.bind_eq_ok.mp h
    obtain ⟨t2, h2, h⟩ := Outcome.bind_eq_ok.mp h
    exact ⟨Expr.Plain.kept hf x Γ t1 hΓ hk.1 h1, Expr.Plain.kept hf y Γ t2 hΓ hk.2 h2⟩
  | .dup x y, Γ, t, hΓ, hk, h => by
    simp only [Plain] at hk
    simp only [inferType] at h
    simp only [Kept]
    obtain ⟨t1, h1, h⟩ := Outcome.bind_eq_ok.mp h
    obtain ⟨_, _, h⟩ := Outcome.bind_eq_ok.mp h
    obtain ⟨t2, h2, h⟩ := Outcome.bind_eq_ok.mp h
    exact ⟨Expr.Plain.kept hf x Γ t1 hΓ hk.1 h1, Expr.Plain.kept hf y Γ t2 hΓ hk.2 h2⟩
  | .subSeq x a n, Γ, t, hΓ, hk, h => by
    simp only [Plain] at hk
    simp only [inferType] at h
    simp only [Kept]
    obtain ⟨t1, h1, h⟩ := Outcome.bind_eq_ok.mp h
    obtain ⟨_, _, h⟩ := Outcome.bind_eq_ok.mp h
    obtain ⟨t2, h2, h⟩ := Outcome.bind_eq_ok.mp h
    obtain ⟨t3, h3, h⟩ := Outcome.bind_eq_ok.mp h
    exact ⟨Expr.Plain.kept hf x Γ t1 hΓ hk.1 h1, Expr.Plain.kept hf a Γ t2 hΓ hk.2.1 h2,
      Expr.Plain.kept hf n Γ t3 hΓ hk.2.2 h3⟩
  | .subSeqInflate x a n, Γ, t, hΓ, hk, h => by
    simp only [Plain] at hk
    simp only [inferType] at h
    simp only [Kept]
    obtain ⟨t1, h1, h⟩ := Outcome.bind_eq_ok.mp h
    obtain ⟨_, _, h⟩ := Outcome.bind_eq_ok.mp h
    obtain ⟨t2, h2, h⟩ := Outcome.bind_eq_ok.mp h
    obtain ⟨t3, h3, h⟩ := Outcome.bind_eq_ok.mp h
    exact ⟨Expr.Plain.kept hf x Γ t1 hΓ hk.1 h1, Expr.Plain.kept hf a Γ t2 hΓ hk.2.1 h2,
      Expr.Plain.kept hf n Γ t3 hΓ hk.2.2 h3⟩
  | .lambda _ _, _, _, _, _, _ => by simp only [Kept]
  | .liftNone, _, _, _, _, _ => by simp only [Kept]
  | .flatMapList _ _ _, _, _, _, hk, _ => by simp only [Plain] at hk
  | .match_ head branches, Γ, t, hΓ, hk, h => by
    simp only [Plain] at hk
    simp only [inferType] at h
    simp only [Kept]
    split at h
    · simp only [reduceCtorEq] at h
    · obtain ⟨th, h1, h⟩ := Outcome.bind_eq_ok.mp h
      have k1 := Expr.Plain.kept hf head Γ th hΓ hk.1 h1
      refine ⟨k1, fun th' h' => ?_⟩
      rw [h1] at h'
      cases h'
      exact Expr.PlainBranches.kept hf branches Γ th .any t hΓ
        (Expr.infer_sound (δ := Unit) hf head Γ th hΓ k1 h1).1 hk.2 h
  | .destructure head pat body, Γ, t, hΓ, hk, h => by
    simp only [Plain] at hk
    simp only [inferType] at h
    simp only [Kept]
    obtain ⟨th, h1, h⟩ := Outcome.bind_eq_ok.mp h
    obtain ⟨Γ', h2, h⟩ := Outcome.bind_eq_ok.mp h
    have k1 := Expr.Plain.kept hf head Γ th hΓ hk.1 h1
    refine ⟨k1, fun th' Γ'' h' h'' => ?_⟩
    rw [h1] at h'
    cases h'
    rw [h2] at h''
    cases h''
    exact Expr.Plain.kept hf body Γ' t (Pattern.build_wf pat th Γ Γ' h2
      (Expr.infer_sound (δ := Unit) hf head Γ th hΓ k1 h1).1 hΓ) hk.2 h
  | .flatMap f x, Γ, t, hΓ, hk, h => by
    match f, hk, h with
    | .lambda name body, hk, h =>
      simp only [Plain] at hk
      simp only [inferType] at h
      simp only [Kept]
      obtain ⟨ts, h1, h⟩ := Outcome.bind_eq_ok.mp h
      obtain ⟨t1, h2, h⟩ := Outcome.bind_eq_ok.mp h
      rw [ValueType.elemI_eq h2] at h1
      obtain ⟨tr, h3, h⟩ := Outcome.bind_eq_ok.mp h
      have k1 := Expr.Plain.kept hf x Γ _ hΓ hk.2 h1
      refine ⟨k1, fun t' h' => ?_⟩
      rw [h1] at h'
      cases h'
      exact Expr.Plain.kept hf body _ tr
        (hΓ.cons (Expr.infer_sound (δ := Unit) hf x Γ _ hΓ k1 h1).1.elem) hk.1 h3
  | .findByKey sorted f query x, Γ, t, hΓ, hk, h => by
    match f, hk, h with
    | .lambda name body, hk, h =>
      simp only [Plain] at hk
      simp only [inferType] at h
      simp only [Kept]
      obtain ⟨ts, h1, h⟩ := Outcome.bind_eq_ok.mp h
      obtain ⟨t1, h2, h⟩ := Outcome.bind_eq_ok.mp h
      rw [ValueType.elemI_eq h2] at h1
      obtain ⟨tq, h3, h⟩ := Outcome.bind_eq_ok.mp h
      obtain ⟨tk, h4, h⟩ := Outcome.bind_eq_ok.mp h
      have k1 := Expr.Plain.kept hf x Γ _ hΓ hk.2.2 h1
      refine ⟨k1, Expr.Plain.kept hf query Γ _ hΓ hk.2.1 h3, fun t' h' => ?_⟩
      rw [h1] at h'
      cases h'
      exact Expr.Plain.kept hf body _ tk
        (hΓ.cons (Expr.infer_sound (δ := Unit) hf x Γ _ hΓ k1 h1).1.elem) hk.1 h4
  | .flatMapAccum f accum ty x, Γ, t, hΓ, hk, h => by
    match f, hk, h with
    | .lambda name body, hk, h =>
      simp only [Plain] at hk
      simp only [inferType] at h
      simp only [Kept]
      obtain ⟨hkf, hka, hr, hkx⟩ := hk
      obtain ⟨ts, h1, h⟩ := Outcome.bind_eq_ok.mp h
      obtain ⟨t1, h2, h⟩ := Outcome.bind_eq_ok.mp h
      rw [ValueType.elemI_eq h2] at h1
      obtain ⟨t0, h3, h⟩ := Outcome.bind_eq_ok.mp h
      obtain ⟨ta, h4, h⟩ := Outcome.bind_eq_ok.mp h
      have h4 := ValueType.unifyI_eq h4
      obtain ⟨tr, h5, h⟩ := Outcome.bind_eq_ok.mp h
      have k1 := Expr.Plain.kept hf x Γ _ hΓ hkx h1
      have k2 := Expr.Plain.kept hf accum Γ _ hΓ hka h3
      have w0 := (Expr.infer_sound (δ := Unit) hf accum Γ _ hΓ k2 h3).1
      have e := (ValueType.unify_rigid_right w0 hr h4).1
      refine ⟨k1, k2, hr.wf, fun t' t0' ta' h' h0' ha' => ?_⟩
      rw [h1] at h'
      cases h'
      rw [h3] at h0'
      cases h0'
      rw [h4] at ha'
      cases ha'
      have wΓ := hΓ.cons (name := name) (.tuple (.cons (e ▸ hr.wf)
        (.cons (Expr.infer_sound (δ := Unit) hf x Γ _ hΓ k1 h1).1.elem .nil)))
      have kb := Expr.Plain.kept hf body _ tr wΓ hkf h5
      refine ⟨kb, fun tacc t2 hb => ?_⟩
      rw [h5] at hb
      cases hb
      have wb := (Expr.infer_sound (δ := Unit) hf body _ _ wΓ kb h5).1
      simp only [] at h
      obtain ⟨u, hu, h⟩ := Outcome.bind_eq_ok.mp h
      cases wb with
      | tuple wb => cases wb with
        | cons wb _ =>
          rw [e] at hu ⊢
          exact (ValueType.unify_rigid_right wb hr (ValueType.unifyI_eq hu)).2
  | .leftFold f accum ty x, Γ, t, hΓ, hk, h => by
    match f, hk, h with
    | .lambda name body, hk, h =>
      simp only [Plain] at hk
      simp only [inferType] at h
      simp only [Kept]
      obtain ⟨hkf, hka, hr, hkx⟩ := hk
      obtain ⟨ts, h1, h⟩ := Outcome.bind_eq_ok.mp h
      obtain ⟨t1, h2, h⟩ := Outcome.bind_eq_ok.mp h
      rw [ValueType.elemI_eq h2] at h1
      obtain ⟨t0, h3, h⟩ := Outcome.bind_eq_ok.mp h
      obtain ⟨ta, h4, h⟩ := Outcome.bind_eq_ok.mp h
      have h4 := ValueType.unifyI_eq h4
      obtain ⟨tr, h5, h⟩ := Outcome.bind_eq_ok.mp h
      have k1 := Expr.Plain.kept hf x Γ _ hΓ hkx h1
      have k2 := Expr.Plain.kept hf accum Γ _ hΓ hka h3
      have w0 := (Expr.infer_sound (δ := Unit) hf accum Γ _ hΓ k2 h3).1
      have e := (ValueType.unify_rigid_right w0 hr h4).1
      refine ⟨k1, k2, hr.wf, fun t' t0' ta' h' h0' ha' => ?_⟩
      rw [h1] at h'
      cases h'
      rw [h3] at h0'
      cases h0'
      rw [h4] at ha'
      cases ha'
      have wΓ := hΓ.cons (name := name) (.tuple (.cons (e ▸ hr.wf)
        (.cons (Expr.infer_sound (δ := Unit) hf x Γ _ hΓ k1 h1).1.elem .nil)))
      have kb := Expr.Plain.kept hf body _ tr wΓ hkf h5
      refine ⟨kb, fun tacc hb => ?_⟩
      rw [h5] at hb
      cases hb
      have wb := (Expr.infer_sound (δ := Unit) hf body _ _ wΓ kb h5).1
      rw [e] at h ⊢
      exact (ValueType.unify_rigid_right wb hr (ValueType.unifyI_eq h)).2

theorem Expr.PlainList.kept {σ : Slack} (hf : σ.fallbacks ≠ .typed) : ∀ (es : List Expr) (Γ : TypeScope)
    (ts : List ValueType), Γ.WF → Expr.PlainList σ es → Expr.inferList es Γ = .ok ts →
    Expr.KeptList σ es Γ
  | [], _, _, _, _, _ => by simp only [KeptList]
  | e :: es, Γ, ts, hΓ, hk, h => by
    simp only [PlainList] at hk
    simp only [inferList] at h
    simp only [KeptList]
    obtain ⟨t1, h1, h⟩ := Outcome.bind_eq_ok.mp h
    obtain ⟨ts', h2, h⟩ := Outcome.bind_eq_ok.mp h
    exact ⟨Expr.Plain.kept hf e Γ t1 hΓ hk.1 h1, Expr.PlainList.kept hf es Γ ts' hΓ hk.2 h2⟩

theorem Expr.PlainList.keptSeq {σ : Slack} (hf : σ.fallbacks ≠ .typed) : ∀ (es : List Expr) (Γ : TypeScope)
    (acc t : ValueType), Γ.WF → Expr.PlainList σ es → Expr.inferSeq es Γ acc = .ok t →
    Expr.KeptList σ es Γ
  | [], _, _, _, _, _, _ => by simp only [KeptList]
  | e :: es, Γ, acc, t, hΓ, hk, h => by
    simp only [PlainList] at hk
    simp only [inferSeq] at h
    simp only [KeptList]
    obtain ⟨t1, h1, h⟩ := Outcome.bind_eq_ok.mp h
    obtain ⟨acc', h2, h⟩ := Outcome.bind_eq_ok.mp h
    exact ⟨Expr.Plain.kept hf e Γ t1 hΓ hk.1 h1, Expr.PlainList.keptSeq hf es Γ acc' t hΓ hk.2 h⟩

theorem Expr.PlainFields.kept {σ : Slack} (hf : σ.fallbacks ≠ .typed) : ∀ (es : List (String × Expr))
    (Γ : TypeScope) (ts : List (String × ValueType)), Γ.WF → Expr.PlainFields σ es →
    Expr.inferFields es Γ = .ok ts → Expr.KeptFields σ es Γ
  | [], _, _, _, _, _ => by simp only [KeptFields]
  | (_, e) :: es, Γ, ts, hΓ, hk, h => by
    simp only [PlainFields] at hk
    simp only [inferFields] at h
    simp only [KeptFields]
    obtain ⟨t1, h1, h⟩ := Outcome.bind_eq_ok.mp h
    obtain ⟨ts', h2, h⟩ := Outcome.bind_eq_ok.mp h
    exact ⟨Expr.Plain.kept hf e Γ t1 hΓ hk.1 h1, Expr.PlainFields.kept hf es Γ ts' hΓ hk.2 h2⟩

theorem Expr.PlainBranches.kept {σ : Slack} (hf : σ.fallbacks ≠ .typed) : ∀ (bs : List (Pattern × Expr))
    (Γ : TypeScope) (th acc t : ValueType), Γ.WF → th.WF → Expr.PlainBranches σ bs →
    Expr.inferBranches bs Γ th acc = .ok t → Expr.KeptBranches σ bs Γ th
  | [], _, _, _, _, _, _, _, _ => by simp only [KeptBranches]
  | (p, e) :: rest, Γ, th, acc, t, hΓ, hth, hk, h => by
    simp only [PlainBranches] at hk
    simp only [inferBranches] at h
    simp only [KeptBranches]
    obtain ⟨Γ', h0, h⟩ := Outcome.bind_eq_ok.mp h
    obtain ⟨t1, h1, h⟩ := Outcome.bind_eq_ok.mp h
    obtain ⟨acc', h2, h⟩ := Outcome.bind_eq_ok.mp h
    refine ⟨fun Γ'' h'' => ?_, Expr.PlainBranches.kept hf rest Γ th acc' t hΓ hth hk.2 h⟩
    rw [h0] at h''
    cases h''
    exact Expr.Plain.kept hf e Γ' t1 (Pattern.build_wf p th Γ Γ' h0 hth hΓ) hk.1 h1
end

end Doodle
