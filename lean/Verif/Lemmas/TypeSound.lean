import Verif.Lemmas.Typing
import Verif.Spec.TypeSound

/-! Preservation of types by expression evaluation. -/

namespace Doodle
open ValueType (Le LeList LeFields LeMap WF WFList WFMap)

namespace Value

theorem HasType.coerceMapped {σ : Slack} : ∀ {v : Value} {t : ValueType}, v.HasType σ t →
    v.coerceMapped.HasType σ t
  | .mapped _ v, t, h => by
    simp only [HasType] at h; simp only [Value.coerceMapped]; exact h.coerceMapped
  | .branch _ v, t, h => by
    simp only [HasType] at h; simp only [Value.coerceMapped]; exact h.coerceMapped
  | .permitOk v, t, h => by
    simp only [HasType] at h; simp only [Value.coerceMapped]; exact h.coerceMapped
  | .bool _, _, h => h
  | .num _ _, _, h => h
  | .char _, _, h => h
  | .numeric _, _, h => h
  | .view _, _, h => h
  | .phantom, _, h => h
  | .enumFromTo _ _, _, h => h
  | .optNone, _, h => h
  | .optSome _, _, h => h
  | .tuple _, _, h => h
  | .record _, _, h => h
  | .variant _ _, _, h => h
  | .seq _, _, h => h
  | .permitErrNone, _, h => h
  | .permitErr _, _, h => h

theorem HasType.coerceNominal {σ : Slack} : ∀ {v : Value} {t : ValueType}, v.HasType σ t →
    v.coerceNominal.HasType σ t
  | .mapped _ v, t, h => by
    simp only [HasType] at h; simp only [Value.coerceNominal]; exact h.coerceNominal
  | .branch _ v, t, h => by
    simp only [HasType] at h; simp only [Value.coerceNominal]; exact h.coerceNominal
  | .permitOk v, t, h => by
    simp only [HasType] at h; simp only [Value.coerceNominal]; exact h.coerceNominal
  | .permitErr v, t, h => by
    simp only [HasType] at h; simp only [Value.coerceNominal]; exact h.2.coerceNominal
  | .bool _, _, h => h
  | .num _ _, _, h => h
  | .char _, _, h => h
  | .numeric _, _, h => h
  | .view _, _, h => h
  | .phantom, _, h => h
  | .enumFromTo _ _, _, h => h
  | .optNone, _, h => h
  | .optSome _, _, h => h
  | .tuple _, _, h => h
  | .record _, _, h => h
  | .variant _ _, _, h => h
  | .seq _, _, h => h
  | .permitErrNone, _, h => h

theorem allHave_iff {σ : Slack} {vs : List Value} {t : ValueType} :
    AllHave σ vs t ↔ ∀ v ∈ vs, v.HasType σ t := by
  induction vs with
  | nil => simp [AllHave]
  | cons v vs ih => simp [AllHave, ih]

theorem _root_.Doodle.SeqKind.iter_length {α : Type} (s : SeqKind α) : s.iter.length = s.len := by
  cases s <;> simp [SeqKind.iter, SeqKind.len]

/-- the items of a sequence kind have the type -/
theorem hasType_seq {σ : Slack} {s : SeqKind Value} {t : ValueType} :
    (Value.seq s).HasType σ t ↔ ∃ u, t = .seq u ∧ ∀ v ∈ s.iter, v.HasType σ u := by
  cases s with
  | strict vs => simp only [HasType, SeqKind.iter, allHave_iff]
  | dup n x =>
    simp only [HasType, SeqKind.iter, List.mem_replicate]
    constructor
    · rintro ⟨u, rfl, h⟩
      exact ⟨u, rfl, fun v hv => hv.2 ▸ h (Nat.pos_of_ne_zero hv.1)⟩
    · rintro ⟨u, rfl, h⟩
      exact ⟨u, rfl, fun hn => h x ⟨by omega, rfl⟩⟩

theorem hasType_ofUsize {σ : Slack} {n : Nat} {t : ValueType} (hu : σ.usize = true)
    (ht : t.isNumeric = true) : (ofUsize n).HasType σ t := by
  simp only [ofUsize, HasType]; exact ⟨hu, ht⟩

theorem hasType_range {σ : Slack} {a b : Fin usizeCard} {t : ValueType} :
    (Value.enumFromTo a b).HasType σ t ↔
      ∃ u, t = .seq u ∧ σ.usize = true ∧ (a < b → u.isNumeric = true) := by
  simp only [HasType]

/-- the items of anything with a sequence type -/
theorem HasType.items {σ : Slack} {v : Value} {u : ValueType} {s : ValueSeq} (h : v.HasType σ (.seq u))
    (hs : v.getSequence = some s) : ∀ x ∈ s.items, x.HasType σ u := by
  cases v <;> simp only [getSequence, Option.some.injEq, reduceCtorEq] at hs
  · subst hs
    obtain ⟨u', e, h⟩ := hasType_range.mp h
    cases e
    intro x hx
    simp only [ValueSeq.items, List.mem_map, List.mem_range'_1] at hx
    obtain ⟨n, hn, rfl⟩ := hx
    exact hasType_ofUsize h.1 (h.2 (by rw [Fin.lt_def]; omega))
  · subst hs
    obtain ⟨u', e, h⟩ := hasType_seq.mp h
    cases e
    exact h

theorem HaveTypes.get {σ : Slack} : ∀ {vs : List Value} {ts : List ValueType} {i : Nat} {v : Value}
    {t : ValueType}, HaveTypes σ vs ts → vs[i]? = some v → ts[i]? = some t → v.HasType σ t
  | [], _, i, v, t, _, h, _ => by simp at h
  | x :: vs, [], i, v, t, h, _, _ => by simp only [HaveTypes] at h
  | x :: vs, y :: ts, 0, v, t, h, hv, ht => by
    simp only [HaveTypes] at h
    simp only [List.getElem?_cons_zero, Option.some.injEq] at hv ht
    subst hv; subst ht; exact h.1
  | x :: vs, y :: ts, i + 1, v, t, h, hv, ht => by
    simp only [HaveTypes] at h
    simp only [List.getElem?_cons_succ] at hv ht
    exact HaveTypes.get h.2 hv ht

theorem FieldsHave.find {σ : Slack} {label : String} : ∀ {vs : List (String × Value)}
    {ts : List (String × ValueType)} {v : Value} {t : ValueType}, FieldsHave σ vs ts →
    (vs.find? (fun f => label == f.1)).map (·.2) = some v →
    (ts.find? (fun f => label == f.1)).map (·.2) = some t → v.HasType σ t
  | [], _, v, t, _, h, _ => by simp at h
  | x :: vs, [], v, t, h, _, _ => by simp only [FieldsHave] at h
  | (l, x) :: vs, (k, y) :: ts, v, t, h, hv, ht => by
    simp only [FieldsHave] at h
    obtain ⟨rfl, h1, h2⟩ := h
    rw [List.find?_cons] at hv ht
    cases hl : label == l with
    | true =>
      simp only [hl, Option.map_some, Option.some.injEq] at hv ht
      subst hv; subst ht; exact h1
    | false =>
      simp only [hl] at hv ht
      exact FieldsHave.find h2 hv ht

/-- projections preserve types unless fallback values are held to their exact type -/
theorem HasType.tupleProj {σ : Slack} (hf : σ.fallbacks ≠ .typed) {v r : Value} {ts : List ValueType}
    {t : ValueType} {i : Nat} (h : v.HasType σ (.tuple ts)) (ht : ts[i]? = some t)
    (hr : v.tupleProj i = .ok r) : r.HasType σ t := by
  cases v <;> simp only [Value.tupleProj, reduceCtorEq] at hr
  · simp only [HasType] at h
    obtain ⟨ts', e, h⟩ := h
    cases e
    cases hg : (‹List Value›)[i]? with
    | none => rw [hg] at hr; simp only [Panicky.unwrap, reduceCtorEq] at hr
    | some x =>
      rw [hg] at hr
      simp only [Panicky.unwrap, Panicky.ok.injEq] at hr
      subst hr
      exact h.get hg ht
  · simp only [Panicky.ok.injEq] at hr; subst hr
    simp only [HasType] at h ⊢; exact h
  · simp only [Panicky.ok.injEq] at hr; subst hr
    simp only [HasType] at h ⊢
    cases hσ : σ.fallbacks with
    | none => exact absurd hσ h.1
    | typed => exact absurd hσ hf
    | poison => rfl

theorem HasType.recordProj {σ : Slack} (hf : σ.fallbacks ≠ .typed) {v r : Value}
    {ts : List (String × ValueType)} {t : ValueType} {l : String} (h : v.HasType σ (.record ts))
    (ht : (ts.find? (fun f => l == f.1)).map (·.2) = some t)
    (hr : v.recordProj l = .ok r) : r.HasType σ t := by
  cases v <;> simp only [Value.recordProj, reduceCtorEq] at hr
  · simp only [HasType] at h
    obtain ⟨ts', e, h⟩ := h
    cases e
    cases hg : ((‹List (String × Value)›).find? (fun f => l == f.1)).map (·.2) with
    | none => rw [hg] at hr; simp only [Panicky.unwrap, reduceCtorEq] at hr
    | some x =>
      rw [hg] at hr
      simp only [Panicky.unwrap, Panicky.ok.injEq] at hr
      subst hr
      exact h.find hg ht
  · simp only [Panicky.ok.injEq] at hr; subst hr
    simp only [HasType] at h ⊢; exact h
  · simp only [Panicky.ok.injEq] at hr; subst hr
    simp only [HasType] at h ⊢
    cases hσ : σ.fallbacks with
    | none => exact absurd hσ h.1
    | typed => exact absurd hσ hf
    | poison => rfl

theorem hasType_mkNum {σ : Slack} {w : Num.BitWidth} {n : Nat} {v : Value}
    (h : mkNum (.fixed w) n = .ok v) : v.HasType σ (.u w) := by
  unfold mkNum at h
  split at h
  · simp only [Panicky.ok.injEq] at h; subst h; simp only [HasType, ValueType.u]
  · simp only [reduceCtorEq] at h

/-- a number of some kind is moved to another number of the same kind -/
theorem hasType_mkNum_of {σ : Slack} {k : UKind} {m : Fin k.card} {n : Nat} {v : Value} {t u : ValueType}
    (h0 : (Value.num k m).HasType σ t) (hle : Le t u) (h : mkNum k n = .ok v) : v.HasType σ u := by
  unfold mkNum at h
  split at h
  · simp only [Panicky.ok.injEq] at h; subst h
    refine HasType.mono ?_ hle
    cases k <;> simp only [HasType] at h0 ⊢ <;> exact h0
  · simp only [reduceCtorEq] at h

theorem arithNum_kind {op : Arith} {k : UKind} {l r : Nat} {v : Value} (h : arithNum op k l r = .ok v) :
    ∃ n, mkNum k n = .ok v := by
  unfold arithNum at h
  cases op <;> simp only [reduceCtorEq] at h <;> first
    | exact ⟨_, h⟩
    | (split at h <;> first | exact ⟨_, h⟩ | simp only [reduceCtorEq] at h)

end Value

namespace TypeScope

theorem WF.cons {Γ : TypeScope} (h : Γ.WF) {name : String} {t : ValueType} (ht : t.WF) :
    TypeScope.WF ((name, .value t) :: Γ) := by
  intro n u hm
  rcases List.mem_cons.mp hm with e | hm
  · cases e; exact ht
  · exact h n u hm

theorem get_mem {Γ : TypeScope} {name : String} {k : ValueKind} (h : Γ.get name = .ok k) :
    (name, k) ∈ Γ := by
  induction Γ with
  | nil => cases h
  | cons p Γ ih =>
    obtain ⟨n, k'⟩ := p
    unfold get at h
    split at h
    · rename_i e
      subst e
      simp only [Outcome.ok.injEq] at h; subst h; exact List.mem_cons_self
    · exact List.mem_cons_of_mem _ (ih h)

theorem getValue_eq {Γ : TypeScope} {name : String} {t : ValueType} (h : Γ.getValue name = .ok t) :
    Γ.get name = .ok (.value t) := by
  unfold getValue at h
  obtain ⟨k, hk, h⟩ := Outcome.bind_eq_ok.mp h
  cases k <;> simp only [reduceCtorEq, Outcome.ok.injEq] at h
  subst h; exact hk

end TypeScope

theorem ValueType.unifyI_eq {t1 t2 t : ValueType} (h : t1.unifyI t2 = .ok t) : t1.unify t2 = some t :=
  Outcome.ofOption_eq_ok.mp h

namespace Scope
variable {δ : Type} {σ : Slack}

theorem Agrees.single {s : Scope δ} {Γ : TypeScope} (h : s.Agrees σ Γ) {name : String} {v : Value}
    {t : ValueType} (hv : v.HasType σ t) : (Scope.single name v s).Agrees σ ((name, .value t) :: Γ) := by
  intro n u x hg hx
  unfold TypeScope.get at hg
  unfold getValue at hx
  by_cases e : name = n
  · simp only [e, if_true, Outcome.ok.injEq, ValueKind.value.injEq, Option.some.injEq] at hg hx
    subst hg; subst hx; exact hv
  · simp only [e, if_false] at hg hx
    exact h n u x hg hx

/-- the bindings of a pattern pushed one by one -/
theorem getValue_withBindings_snoc {s : Scope δ} {bs : List (String × Value)} {name n : String} {v : Value} :
    (s.withBindings (bs ++ [(name, v)])).getValue n =
      if name = n then some v else (s.withBindings bs).getValue n := by
  simp only [withBindings, getValue, List.map_append, List.map_cons, List.map_nil, List.reverse_append,
    List.reverse_cons, List.reverse_nil, List.nil_append, List.cons_append]
  rw [findValue]
  by_cases e : name = n
  · simp [e]
  · simp [e]

theorem getValue_withBindings_nil {s : Scope δ} {n : String} :
    (s.withBindings []).getValue n = s.getValue n := by
  simp [withBindings, getValue, findValue]

end Scope

mutual
/-- matching a pattern preserves everything that single bindings preserve -/
theorem Pattern.build_ext {σ : Slack} {P : List (String × Value) → TypeScope → Prop}
    (hP : ∀ bs Γ name v t, P bs Γ → v.HasType σ t → P (bs ++ [(name, v)]) ((name, .value t) :: Γ)) : ∀ (p : Pattern) (v : Value)
    (t : ValueType) (Γ Γ' : TypeScope) (bs bs' : List (String × Value)),
    p.buildScope Γ t = .ok Γ' → p.matchesInner v bs = some bs' → v.HasType σ t →
    P bs Γ → P bs' Γ'
  | .binding name, v, t, Γ, Γ', bs, bs', hb, hm, hv, ha => by
    simp only [buildScope, Outcome.ok.injEq] at hb
    simp only [matchesInner, Option.some.injEq] at hm
    subst hb; subst hm
    exact hP bs Γ name v t ha hv
  | .wildcard, v, t, Γ, Γ', bs, bs', hb, hm, hv, ha => by
    simp only [buildScope, Outcome.ok.injEq] at hb
    simp only [matchesInner, Option.some.injEq] at hm
    subst hb; subst hm; exact ha
  | .bool b, v, t, Γ, Γ', bs, bs', hb, hm, hv, ha => by
    have hb : Γ = Γ' := by
      unfold buildScope at hb
      cases t <;> simp only [Outcome.ok.injEq, reduceCtorEq] at hb
      rename_i b
      cases b <;> simp only [Outcome.ok.injEq, reduceCtorEq] at hb
      exact hb
    unfold matchesInner at hm
    split at hm <;> simp only [reduceCtorEq, Option.some.injEq] at hm
    subst hm; subst hb; exact ha
  | .lit w n, v, t, Γ, Γ', bs, bs', hb, hm, hv, ha => by
    have hb : Γ = Γ' := by
      unfold buildScope at hb
      cases t <;> simp only [Outcome.ok.injEq, reduceCtorEq] at hb
      rename_i b
      cases b <;> simp only [Outcome.ok.injEq, reduceCtorEq] at hb
      split at hb <;> simp only [Outcome.ok.injEq, reduceCtorEq] at hb
      exact hb
    unfold matchesInner at hm
    split at hm <;> simp only [reduceCtorEq, Option.some.injEq] at hm
    subst hm; subst hb; exact ha
  | .int b, v, t, Γ, Γ', bs, bs', hb, hm, hv, ha => by
    have hb : Γ = Γ' := by
      unfold buildScope at hb
      cases t <;> simp only [Outcome.ok.injEq, reduceCtorEq] at hb
      rename_i b
      cases b <;> simp only [Outcome.ok.injEq, reduceCtorEq] at hb
      exact hb
    unfold matchesInner at hm
    split at hm <;> simp only [reduceCtorEq, Option.some.injEq] at hm
    subst hm; subst hb; exact ha
  | .zConst b, v, t, Γ, Γ', bs, bs', hb, hm, hv, ha => by
    unfold buildScope at hb
    unfold matchesInner at hm
    split at hm <;> simp only [reduceCtorEq, Option.some.injEq] at hm
    subst hm
    split at hb <;> simp only [Outcome.ok.injEq, reduceCtorEq] at hb
    subst hb; exact ha
  | .zRange b, v, t, Γ, Γ', bs, bs', hb, hm, hv, ha => by
    unfold buildScope at hb
    unfold matchesInner at hm
    split at hm <;> simp only [reduceCtorEq, Option.some.injEq] at hm
    subst hm
    split at hb <;> simp only [Outcome.ok.injEq, reduceCtorEq] at hb
    subst hb; exact ha
  | .char c, v, t, Γ, Γ', bs, bs', hb, hm, hv, ha => by
    unfold buildScope at hb
    simp only [reduceCtorEq] at hb
  | .tuple ps, v, t, Γ, Γ', bs, bs', hb, hm, hv, ha => by
    cases t <;> simp only [buildScope, reduceCtorEq] at hb
    rename_i ts
    split at hb
    · cases v <;> simp only [matchesInner, Value.matchesFlat, Bool.false_eq_true, if_false,
        reduceCtorEq] at hm
      rename_i vs
      split at hm
      · simp only [Value.HasType, ValueType.tuple.injEq] at hv
        obtain ⟨ts', e, hv⟩ := hv
        subst e
        exact Pattern.build_ext_all hP ps vs ts Γ Γ' bs bs' hb hm hv ha
      · simp only [reduceCtorEq] at hm
    · simp only [reduceCtorEq] at hb
  | .seq ps, v, t, Γ, Γ', bs, bs', hb, hm, hv, ha => by
    cases t <;> simp only [buildScope, reduceCtorEq] at hb
    rename_i t
    cases v <;> simp only [matchesInner, Value.matchesFlat, Bool.false_eq_true, if_false,
        reduceCtorEq] at hm
    rename_i vs
    split at hm
    · obtain ⟨u, e, hv⟩ := Value.hasType_seq.mp hv
      cases e
      exact Pattern.build_ext_seq hP ps vs.iter t Γ Γ' bs bs' hb (by rw [‹ps.length = _›]; exact (SeqKind.iter_length vs).symm) hm hv ha
    · simp only [reduceCtorEq] at hm
  | .optNone, v, t, Γ, Γ', bs, bs', hb, hm, hv, ha => by
    cases t <;> simp only [buildScope, reduceCtorEq, Outcome.ok.injEq] at hb
    subst hb
    cases v <;> simp only [matchesInner, Value.matchesFlat, Bool.false_eq_true, if_false,
        reduceCtorEq, Option.some.injEq] at hm
    subst hm; exact ha
  | .optSome p, v, t, Γ, Γ', bs, bs', hb, hm, hv, ha => by
    cases t <;> simp only [buildScope, reduceCtorEq] at hb
    rename_i t
    cases v <;> simp only [matchesInner, Value.matchesFlat, Bool.false_eq_true, if_false,
        reduceCtorEq] at hm
    rename_i v
    simp only [Value.HasType, ValueType.option.injEq] at hv
    obtain ⟨u, e, hv⟩ := hv
    subst e
    exact Pattern.build_ext hP p v t Γ Γ' bs bs' hb hm hv ha
  | .variant label p, v, t, Γ, Γ', bs, bs', hb, hm, hv, ha => by
    cases t <;> simp only [buildScope, reduceCtorEq] at hb
    rename_i branches
    cases v <;> simp only [matchesInner, Value.matchesFlat, Bool.false_eq_true, if_false,
        reduceCtorEq] at hm
    rename_i label' v
    split at hm
    · rename_i e
      subst e
      simp only [Value.HasType, ValueType.union.injEq] at hv
      obtain ⟨bs0, u, e, hg, hv⟩ := hv
      subst e
      rw [hg] at hb
      exact Pattern.build_ext hP p v u Γ Γ' bs bs' hb hm hv ha
    · simp only [reduceCtorEq] at hm

theorem Pattern.build_ext_all {σ : Slack} {P : List (String × Value) → TypeScope → Prop}
    (hP : ∀ bs Γ name v t, P bs Γ → v.HasType σ t → P (bs ++ [(name, v)]) ((name, .value t) :: Γ)) : ∀ (ps : List Pattern)
    (vs : List Value) (ts : List ValueType) (Γ Γ' : TypeScope) (bs bs' : List (String × Value)),
    Pattern.buildScopes ps Γ ts = .ok Γ' → Pattern.matchesAll ps vs bs = some bs' →
    Value.HaveTypes σ vs ts →
    P bs Γ → P bs' Γ'
  | [], vs, ts, Γ, Γ', bs, bs', hb, hm, hv, ha => by
    simp only [buildScopes, Outcome.ok.injEq] at hb
    simp only [matchesAll, Option.some.injEq] at hm
    subst hb; subst hm; exact ha
  | p :: ps, [], ts, Γ, Γ', bs, bs', hb, hm, hv, ha => by
    cases ts with
    | cons => simp only [Value.HaveTypes] at hv
    | nil =>
      simp only [buildScopes, Outcome.ok.injEq] at hb
      simp only [matchesAll, Option.some.injEq] at hm
      subst hb; subst hm; exact ha
  | p :: ps, v :: vs, ts, Γ, Γ', bs, bs', hb, hm, hv, ha => by
    cases ts with
    | nil => simp only [Value.HaveTypes] at hv
    | cons t ts =>
      simp only [Value.HaveTypes] at hv
      simp only [buildScopes] at hb
      obtain ⟨Γ1, h1, h2⟩ := Outcome.bind_eq_ok.mp hb
      simp only [matchesAll] at hm
      split at hm
      · rename_i acc hacc
        exact Pattern.build_ext_all hP ps vs ts Γ1 Γ' acc bs' h2 hm hv.2
          (Pattern.build_ext hP p v t Γ Γ1 bs acc h1 hacc hv.1 ha)
      · simp only [reduceCtorEq] at hm

theorem Pattern.build_ext_seq {σ : Slack} {P : List (String × Value) → TypeScope → Prop}
    (hP : ∀ bs Γ name v t, P bs Γ → v.HasType σ t → P (bs ++ [(name, v)]) ((name, .value t) :: Γ)) : ∀ (ps : List Pattern)
    (vs : List Value) (t : ValueType) (Γ Γ' : TypeScope) (bs bs' : List (String × Value)),
    Pattern.buildScopeSeq ps Γ t = .ok Γ' → ps.length = vs.length → Pattern.matchesAll ps vs bs = some bs' →
    (∀ v ∈ vs, v.HasType σ t) →
    P bs Γ → P bs' Γ'
  | [], vs, t, Γ, Γ', bs, bs', hb, hl, hm, hv, ha => by
    simp only [buildScopeSeq, Outcome.ok.injEq] at hb
    simp only [matchesAll, Option.some.injEq] at hm
    subst hb; subst hm; exact ha
  | p :: ps, [], t, Γ, Γ', bs, bs', hb, hl, hm, hv, ha => by
    simp at hl
  | p :: ps, v :: vs, t, Γ, Γ', bs, bs', hb, hl, hm, hv, ha => by
    simp only [buildScopeSeq] at hb
    obtain ⟨Γ1, h1, h2⟩ := Outcome.bind_eq_ok.mp hb
    simp only [matchesAll] at hm
    split at hm
    · rename_i acc hacc
      exact Pattern.build_ext_seq hP ps vs t Γ1 Γ' acc bs' h2 (by simpa using hl) hm
        (fun x hx => hv x (List.mem_cons_of_mem _ hx))
        (Pattern.build_ext hP p v t Γ Γ1 bs acc h1 hacc (hv v List.mem_cons_self) ha)
    · simp only [reduceCtorEq] at hm
end

/-- matching a pattern extends agreeing scopes to agreeing scopes -/
theorem Pattern.build_agrees {δ : Type} {σ : Slack} {s : Scope δ} (p : Pattern) (v : Value)
    (t : ValueType) (Γ Γ' : TypeScope) (bs bs' : List (String × Value)) :
    p.buildScope Γ t = .ok Γ' → p.matchesInner v bs = some bs' → v.HasType σ t →
    (s.withBindings bs).Agrees σ Γ → (s.withBindings bs').Agrees σ Γ' := by
  refine Pattern.build_ext (P := fun bs Γ => (s.withBindings bs).Agrees σ Γ) ?_ p v t Γ Γ' bs bs'
  intro bs Γ name v t ha hv n u x hg hx
  rw [Scope.getValue_withBindings_snoc] at hx
  unfold TypeScope.get at hg
  by_cases e : name = n
  · simp only [e, if_true, Outcome.ok.injEq, ValueKind.value.injEq, Option.some.injEq] at hg hx
    subst hg; subst hx; exact hv
  · simp only [e, if_false] at hg hx
    exact ha n u x hg hx

mutual
theorem Pattern.build_wf : ∀ (p : Pattern) (t : ValueType) (Γ Γ' : TypeScope),
    p.buildScope Γ t = .ok Γ' → t.WF → Γ.WF → Γ'.WF
  | .binding name, t, Γ, Γ', hb, ht, hΓ => by
    simp only [buildScope, Outcome.ok.injEq] at hb
    subst hb; exact hΓ.cons ht
  | .wildcard, t, Γ, Γ', hb, ht, hΓ => by
    simp only [buildScope, Outcome.ok.injEq] at hb
    subst hb; exact hΓ
  | .bool b, t, Γ, Γ', hb, ht, hΓ => by
    unfold buildScope at hb
    cases t <;> simp only [reduceCtorEq] at hb
    rename_i b
    cases b <;> simp only [Outcome.ok.injEq, reduceCtorEq] at hb
    subst hb; exact hΓ
  | .lit w n, t, Γ, Γ', hb, ht, hΓ => by
    unfold buildScope at hb
    cases t <;> simp only [reduceCtorEq] at hb
    rename_i b
    cases b <;> simp only [reduceCtorEq] at hb
    split at hb <;> simp only [Outcome.ok.injEq, reduceCtorEq] at hb
    subst hb; exact hΓ
  | .int b, t, Γ, Γ', hb, ht, hΓ => by
    unfold buildScope at hb
    cases t <;> simp only [reduceCtorEq] at hb
    rename_i b
    cases b <;> simp only [Outcome.ok.injEq, reduceCtorEq] at hb
    subst hb; exact hΓ
  | .zConst b, t, Γ, Γ', hb, ht, hΓ => by
    unfold buildScope at hb
    split at hb <;> simp only [Outcome.ok.injEq, reduceCtorEq] at hb
    subst hb; exact hΓ
  | .zRange b, t, Γ, Γ', hb, ht, hΓ => by
    unfold buildScope at hb
    split at hb <;> simp only [Outcome.ok.injEq, reduceCtorEq] at hb
    subst hb; exact hΓ
  | .char c, t, Γ, Γ', hb, ht, hΓ => by
    unfold buildScope at hb
    simp only [reduceCtorEq] at hb
  | .tuple ps, t, Γ, Γ', hb, ht, hΓ => by
    cases t <;> simp only [buildScope, reduceCtorEq] at hb
    rename_i ts
    split at hb
    · cases ht with
      | tuple ht => exact Pattern.build_wf_all ps ts Γ Γ' hb ht hΓ
    · simp only [reduceCtorEq] at hb
  | .seq ps, t, Γ, Γ', hb, ht, hΓ => by
    cases t <;> simp only [buildScope, reduceCtorEq] at hb
    rename_i t
    cases ht with
    | seq ht => exact Pattern.build_wf_seq ps t Γ Γ' hb ht hΓ
  | .optNone, t, Γ, Γ', hb, ht, hΓ => by
    cases t <;> simp only [buildScope, reduceCtorEq, Outcome.ok.injEq] at hb
    subst hb; exact hΓ
  | .optSome p, t, Γ, Γ', hb, ht, hΓ => by
    cases t <;> simp only [buildScope, reduceCtorEq] at hb
    rename_i t
    cases ht with
    | option ht => exact Pattern.build_wf p t Γ Γ' hb ht hΓ
  | .variant label p, t, Γ, Γ', hb, ht, hΓ => by
    cases t <;> simp only [buildScope, reduceCtorEq] at hb
    rename_i branches
    split at hb
    · rename_i u hg
      cases ht with
      | union _ ht => exact Pattern.build_wf p u Γ Γ' hb (ht.get hg) hΓ
    · simp only [reduceCtorEq] at hb

theorem Pattern.build_wf_all : ∀ (ps : List Pattern) (ts : List ValueType) (Γ Γ' : TypeScope),
    Pattern.buildScopes ps Γ ts = .ok Γ' → WFList ts → Γ.WF → Γ'.WF
  | [], ts, Γ, Γ', hb, ht, hΓ => by
    simp only [buildScopes, Outcome.ok.injEq] at hb
    subst hb; exact hΓ
  | p :: ps, [], Γ, Γ', hb, ht, hΓ => by
    simp only [buildScopes, Outcome.ok.injEq] at hb
    subst hb; exact hΓ
  | p :: ps, t :: ts, Γ, Γ', hb, ht, hΓ => by
    simp only [buildScopes] at hb
    obtain ⟨Γ1, h1, h2⟩ := Outcome.bind_eq_ok.mp hb
    cases ht with
    | cons ht hts => exact Pattern.build_wf_all ps ts Γ1 Γ' h2 hts (Pattern.build_wf p t Γ Γ1 h1 ht hΓ)

theorem Pattern.build_wf_seq : ∀ (ps : List Pattern) (t : ValueType) (Γ Γ' : TypeScope),
    Pattern.buildScopeSeq ps Γ t = .ok Γ' → t.WF → Γ.WF → Γ'.WF
  | [], t, Γ, Γ', hb, ht, hΓ => by
    simp only [buildScopeSeq, Outcome.ok.injEq] at hb
    subst hb; exact hΓ
  | p :: ps, t, Γ, Γ', hb, ht, hΓ => by
    simp only [buildScopeSeq] at hb
    obtain ⟨Γ1, h1, h2⟩ := Outcome.bind_eq_ok.mp hb
    exact Pattern.build_wf_seq ps t Γ1 Γ' h2 ht (Pattern.build_wf p t Γ Γ1 h1 ht hΓ)
end

/-- matching at the top of an evaluated value -/
theorem Pattern.matches_agrees {δ : Type} {σ : Slack} {s : Scope δ} {p : Pattern} {v : Value}
    {t : ValueType} {Γ Γ' : TypeScope} {bs : List (String × Value)} (hb : p.buildScope Γ t = .ok Γ')
    (hm : v.matchesPat p = some bs) (hv : v.HasType σ t) (ha : s.Agrees σ Γ) :
    (s.withBindings bs).Agrees σ Γ' := by
  refine Pattern.build_agrees p v.coerceNominal t Γ Γ' [] bs hb hm hv.coerceNominal ?_
  intro n u x hg hx
  rw [Scope.getValue_withBindings_nil] at hx
  exact ha n u x hg hx

/-! ### Numeric expressions -/

namespace Num

theorem Out.bind_ok {α β : Type} {x : Out α} {f : α → Out β} {b : β} (h : x.bind f = .ok b) :
    ∃ a, x = .ok a ∧ f a = .ok b := by
  cases x <;> simp only [Out.bind, reduceCtorEq] at h
  exact ⟨_, rfl, h⟩

/-- a constant belongs to a type: like `Value.HasType` on a `Numeric` value -/
def TypedConst.Fits (σ : Slack) (c : TypedConst) (t : ValueType) : Prop :=
  (Value.numeric c).HasType { σ with numerics := true } t

theorem fits_hasType {σ : Slack} {c : TypedConst} {t : ValueType} (h : c.Fits σ t) (hn : σ.numerics = true) :
    (Value.numeric c).HasType σ t := by
  have : ({ σ with numerics := true } : Slack) = σ := by cases σ; simp_all
  unfold TypedConst.Fits at h
  rwa [this] at h

theorem fits_rep {σ : Slack} {c : TypedConst} {t : ValueType} :
    c.Fits σ t ↔ (c.rep = .auto ∧ t.isNumeric = true) ∨
      ∃ m, c.rep = .concrete m ∧ t = .ofMachine m ∧
        (σ.wide = true ∨ (m.asBounds.min ≤ c.val ∧ c.val ≤ m.asBounds.max)) := by
  unfold TypedConst.Fits
  simp only [Value.HasType]
  cases hr : c.rep with
  | auto => simp
  | concrete m => simp [ValueType.ofMachine]

theorem ofMachine_numeric (m : MachineRep) : (ValueType.ofMachine m).isNumeric = true := by
  unfold ValueType.ofMachine
  split <;> rfl

theorem fits_numeric {σ : Slack} {c : TypedConst} {t : ValueType} (h : c.Fits σ t) : t.isNumeric = true := by
  rcases fits_rep.mp h with h | ⟨m, _, rfl, _⟩
  · exact h.2
  · exact ofMachine_numeric m

theorem fits_strict {σ : Slack} : ∀ {v : Value} {t : ValueType} {sv : StrictValue}, v.HasType σ t →
    v.toStrict = some sv → sv.value.Fits σ t
  | .permitOk v, t, sv, h, hs => by
    simp only [Value.HasType] at h; simp only [Value.toStrict] at hs; exact fits_strict h hs
  | .permitErr v, t, sv, h, hs => by
    simp only [Value.HasType] at h; simp only [Value.toStrict] at hs; exact fits_strict h.2 hs
  | .mapped _ v, t, sv, h, hs => by
    simp only [Value.HasType] at h; simp only [Value.toStrict] at hs; exact fits_strict h hs
  | .branch _ v, t, sv, h, hs => by
    simp only [Value.HasType] at h; simp only [Value.toStrict] at hs; exact fits_strict h hs
  | .numeric c, t, sv, h, hs => by
    simp only [Value.toStrict, Option.some.injEq] at hs; subst hs
    simp only [Value.HasType] at h
    simp only [TypedConst.Fits, Value.HasType]
    exact ⟨trivial, h.2⟩
  | .num (.fixed w) i, t, sv, h, hs => by
    simp only [Value.toStrict, Option.some.injEq] at hs; subst hs
    simp only [Value.HasType] at h
    subst h
    refine fits_rep.mpr (Or.inr ⟨_, rfl, rfl, Or.inr ?_⟩)
    have hi := i.isLt
    generalize i.val = n at hi
    cases w <;> simp only [MachineRep.asBounds, UKind.card, UKind.bits, BitWidth.bits] at hi ⊢ <;> omega
  | .num .usize i, t, sv, h, hs => by
    simp only [Value.toStrict, Option.some.injEq] at hs; subst hs
    simp only [Value.HasType] at h
    exact fits_rep.mpr (Or.inl ⟨rfl, h.2⟩)
  | .bool _, _, _, _, hs => by simp only [Value.toStrict, reduceCtorEq] at hs
  | .char _, _, _, _, hs => by simp only [Value.toStrict, reduceCtorEq] at hs
  | .view _, _, _, _, hs => by simp only [Value.toStrict, reduceCtorEq] at hs
  | .phantom, _, _, _, hs => by simp only [Value.toStrict, reduceCtorEq] at hs
  | .enumFromTo _ _, _, _, _, hs => by simp only [Value.toStrict, reduceCtorEq] at hs
  | .optNone, _, _, _, hs => by simp only [Value.toStrict, reduceCtorEq] at hs
  | .optSome _, _, _, _, hs => by simp only [Value.toStrict, reduceCtorEq] at hs
  | .tuple _, _, _, _, hs => by simp only [Value.toStrict, reduceCtorEq] at hs
  | .record _, _, _, _, hs => by simp only [Value.toStrict, reduceCtorEq] at hs
  | .variant _ _, _, _, _, hs => by simp only [Value.toStrict, reduceCtorEq] at hs
  | .seq _, _, _, _, hs => by simp only [Value.toStrict, reduceCtorEq] at hs
  | .permitErrNone, _, _, _, hs => by simp only [Value.toStrict, reduceCtorEq] at hs

/-- inference of a numeric expression is sound -/
theorem Expr.infer_sound {δ : Type} {σ : Slack} {Γ : TypeScope} (hΓ : Γ.WF) : ∀ (n : Num.Expr) (t : ValueType),
    n.inferType Γ = .ok t → (σ.wide = true ∨ n.Tame) →
    t.WF ∧ ∀ (s : Scope δ) (c : TypedConst), s.Agrees σ Γ → n.eval s.numLookup = .ok c → c.Fits σ t
  | .const c, t, h, hw => by
    simp only [Expr.inferType, Outcome.ok.injEq] at h
    subst h
    refine ⟨?_, ?_⟩
    · cases hc : c.rep with
      | auto => exact .numericHole
      | concrete m => exact ValueType.isNumeric_wf (ofMachine_numeric m)
    · intro s c' _ he
      simp only [Expr.eval, Out.ok.injEq] at he
      subst he
      refine fits_rep.mpr ?_
      simp only [Tame] at hw
      cases hc : c.rep with
      | auto => exact Or.inl ⟨rfl, rfl⟩
      | concrete m =>
        rw [hc] at hw
        exact Or.inr ⟨m, rfl, rfl, hw⟩
  | .binOp op outRep l r, t, h, hw => by
    replace hw : σ.wide = true := by rcases hw with hw | hw; exact hw; simp only [Tame] at hw
    cases outRep with
    | some rep =>
      simp only [Expr.inferType, Outcome.ok.injEq] at h
      subst h
      refine ⟨ValueType.isNumeric_wf (ofMachine_numeric rep), ?_⟩
      intro s c _ he
      unfold Expr.eval at he
      obtain ⟨a, ha, he⟩ := Out.bind_ok he
      obtain ⟨b, hb, he⟩ := Out.bind_ok he
      unfold evalBinOp at he
      obtain ⟨raw, _, he⟩ := Out.bind_ok he
      simp only [Out.ok.injEq] at he
      subst he
      exact fits_rep.mpr (Or.inr ⟨rep, rfl, rfl, Or.inl hw⟩)
    | none =>
      simp only [Expr.inferType] at h
      obtain ⟨t1, h1, h⟩ := Outcome.bind_eq_ok.mp h
      obtain ⟨t2, h2, h⟩ := Outcome.bind_eq_ok.mp h
      have hu := ValueType.unifyI_eq h
      obtain ⟨w1, s1⟩ := Expr.infer_sound (δ := δ) (σ := σ) hΓ l t1 h1 (Or.inl hw)
      obtain ⟨w2, s2⟩ := Expr.infer_sound (δ := δ) (σ := σ) hΓ r t2 h2 (Or.inl hw)
      obtain ⟨wt, l1, l2⟩ := ValueType.unify_upper t1 t2 t w1 w2 hu
      refine ⟨wt, ?_⟩
      intro s c hs he
      unfold Expr.eval at he
      obtain ⟨a, ha, he⟩ := Out.bind_ok he
      obtain ⟨b, hb, he⟩ := Out.bind_ok he
      have f1 : a.Fits σ t := Value.HasType.mono (s1 s a hs ha) l1
      have f2 : b.Fits σ t := Value.HasType.mono (s2 s b hs hb) l2
      unfold evalBinOp at he
      obtain ⟨raw, _, he⟩ := Out.bind_ok he
      simp only at he
      split at he
      · simp only [Out.ok.injEq] at he
        subst he
        rcases fits_rep.mp f1 with ⟨e1, n1⟩ | ⟨m, e1, n1, _⟩
        · exact fits_rep.mpr (Or.inl ⟨e1, n1⟩)
        · exact fits_rep.mpr (Or.inr ⟨m, e1, n1, Or.inl hw⟩)
      · split at he
        · simp only [Out.ok.injEq] at he
          subst he
          rcases fits_rep.mp f2 with ⟨e1, n1⟩ | ⟨m, e1, n1, _⟩
          · exact fits_rep.mpr (Or.inl ⟨e1, n1⟩)
          · exact fits_rep.mpr (Or.inr ⟨m, e1, n1, Or.inl hw⟩)
        · simp only [reduceCtorEq] at he
  | .unaryOp op outRep e, t, h, hw => by
    replace hw : σ.wide = true := by rcases hw with hw | hw; exact hw; simp only [Tame] at hw
    cases outRep with
    | some rep =>
      simp only [Expr.inferType, Outcome.ok.injEq] at h
      subst h
      refine ⟨ValueType.isNumeric_wf (ofMachine_numeric rep), ?_⟩
      intro s c _ he
      unfold Expr.eval at he
      obtain ⟨a, ha, he⟩ := Out.bind_ok he
      unfold evalUnaryOp at he
      refine fits_rep.mpr (Or.inr ⟨rep, ?_, rfl, Or.inl hw⟩)
      cases op <;> simp only [Out.ok.injEq] at he <;> subst he <;> rfl
    | none =>
      simp only [Expr.inferType] at h
      obtain ⟨wt, s1⟩ := Expr.infer_sound (δ := δ) (σ := σ) hΓ e t h (Or.inl hw)
      refine ⟨wt, ?_⟩
      intro s c hs he
      unfold Expr.eval at he
      obtain ⟨a, ha, he⟩ := Out.bind_ok he
      have f1 := s1 s a hs ha
      have hr : c.rep = a.rep := by
        unfold evalUnaryOp at he
        cases op <;> simp only [Out.ok.injEq] at he <;> subst he <;> rfl
      rcases fits_rep.mp f1 with ⟨e1, n1⟩ | ⟨m, e1, n1, _⟩
      · exact fits_rep.mpr (Or.inl ⟨hr.trans e1, n1⟩)
      · exact fits_rep.mpr (Or.inr ⟨m, hr.trans e1, n1, Or.inl hw⟩)
  | .cast rep bw e, t, h, hw => by
    replace hw : σ.wide = true := by rcases hw with hw | hw; exact hw; simp only [Tame] at hw
    simp only [Expr.inferType, Outcome.ok.injEq] at h
    subst h
    refine ⟨ValueType.isNumeric_wf (ofMachine_numeric rep), ?_⟩
    intro s c _ he
    unfold Expr.eval at he
    obtain ⟨a, ha, he⟩ := Out.bind_ok he
    unfold evalCast at he
    refine fits_rep.mpr (Or.inr ⟨rep, ?_, rfl, Or.inl hw⟩)
    split at he
    · split at he <;> simp only [Out.ok.injEq, reduceCtorEq] at he
      subst he; rfl
    · simp only [Out.ok.injEq] at he; subst he; rfl
  | .numVar name, t, h, hw => by
    simp only [Expr.inferType] at h
    have hg := TypeScope.getValue_eq h
    refine ⟨hΓ name t (TypeScope.get_mem hg), ?_⟩
    intro s c hs he
    unfold Expr.eval at he
    obtain ⟨sv, hl, he⟩ := Out.bind_ok he
    simp only [Out.ok.injEq] at he
    subst he
    unfold Scope.numLookup at hl
    cases hv : s.getValue name with
    | none => rw [hv] at hl; simp only [reduceCtorEq] at hl
    | some v =>
      rw [hv] at hl
      simp only at hl
      split at hl <;> simp only [reduceCtorEq, Out.ok.injEq] at hl
      rename_i sv' hsv
      subst hl
      exact fits_strict (hs name t v hg hv) hsv

end Num

/-! ### Sequence operations -/

namespace Value
variable {σ : Slack}

theorem mem_iter_of_get {α : Type} {s : SeqKind α} {i : Nat} {x : α} (h : s.get i = some x) : x ∈ s.iter := by
  cases s with
  | strict vs => exact List.mem_of_getElem? h
  | dup n y =>
    simp only [SeqKind.get] at h
    split at h
    · cases h; simp only [SeqKind.iter, List.mem_replicate]; exact ⟨by omega, trivial⟩
    · cases h

theorem mem_iter_of_index {α : Type} {s : SeqKind α} {i : Nat} {x : α} (h : s.index i = .ok x) :
    x ∈ s.iter := by
  unfold SeqKind.index at h
  cases hg : s.get i with
  | none => rw [hg] at h; simp only [Panicky.unwrap, reduceCtorEq] at h
  | some y =>
    rw [hg] at h
    simp only [Panicky.unwrap, Panicky.ok.injEq] at h
    subst h; exact mem_iter_of_get hg

theorem hasType_indexOf {v r : Value} {u : ValueType} {i : Nat} (h : v.HasType σ (.seq u))
    (hr : Expr.indexOf v i = .ok r) : r.HasType σ u := by
  unfold Expr.indexOf at hr
  split at hr
  · rename_i s hs
    exact h.items hs r (mem_iter_of_index hr)
  · rename_i a b hs
    split at hr <;> simp only [reduceCtorEq, Panicky.ok.injEq] at hr
    subst hr
    refine h.items hs _ ?_
    simp only [ValueSeq.items, List.mem_map, List.mem_range'_1]
    exact ⟨_, by omega, rfl⟩
  · simp only [reduceCtorEq] at hr

theorem hasType_subSeqOf {v r : Value} {u : ValueType} {i n : Nat} (h : v.HasType σ (.seq u))
    (hr : Expr.subSeqOf v i n = .ok r) : r.HasType σ (.seq u) := by
  unfold Expr.subSeqOf at hr
  split at hr
  · rename_i s hs
    obtain ⟨s', h1, h2⟩ := Panicky.bind_eq_ok.mp hr
    simp only [Panicky.ok.injEq] at h2
    subst h2
    refine hasType_seq.mpr ⟨u, rfl, fun x hx => h.items hs x ?_⟩
    show x ∈ s.iter
    cases s with
    | strict vs =>
      simp only [SeqKind.subSeq] at h1
      split at h1
      · split at h1
        · simp only [Panicky.ok.injEq] at h1
          subst h1
          exact List.mem_of_mem_drop (List.mem_of_mem_take hx)
        · simp only [reduceCtorEq] at h1
      · simp only [reduceCtorEq] at h1
    | dup k y =>
      simp only [SeqKind.subSeq] at h1
      split at h1
      · simp only [Panicky.ok.injEq] at h1
        subst h1
        simp only [SeqKind.iter, List.mem_replicate] at hx ⊢
        exact ⟨by omega, hx.2⟩
      · simp only [reduceCtorEq] at h1
  · rename_i a b hs
    obtain ⟨p, h1, hr⟩ := Panicky.bind_eq_ok.mp hr
    obtain ⟨x, h2, hr⟩ := Panicky.bind_eq_ok.mp hr
    obtain ⟨y, h3, hr⟩ := Panicky.bind_eq_ok.mp hr
    simp only [Panicky.ok.injEq] at hr
    subst hr
    suffices key : σ.usize = true ∧ u.isNumeric = true from
      hasType_range.mpr ⟨u, rfl, key.1, fun _ => key.2⟩
    unfold subRange at h1
    split at h1
    · have hab : a.val < b.val := by rename_i hlt; simp only at hlt; omega
      have := h.items hs (ofUsize a.val) (by
        simp only [ValueSeq.items, List.mem_map, List.mem_range'_1]
        exact ⟨a.val, by omega, rfl⟩)
      simpa only [ofUsize, HasType] using this
    · simp only [reduceCtorEq] at h1
  · simp only [reduceCtorEq] at hr

theorem inflateSeqLoop_mem {α : Type} (P : α → Prop) {s : SeqKind α} (hs : ∀ x ∈ s.iter, P x) {start : Nat} :
    ∀ (n : Nat) (vs : List α) (i : Nat) (out : List α), (∀ x ∈ vs, P x) →
    Prelude.inflateSeqLoop s start vs i n = .ok out → ∀ x ∈ out, P x
  | 0, vs, i, out, hv, h => by
    simp only [Prelude.inflateSeqLoop, Panicky.ok.injEq] at h; subst h; exact hv
  | n + 1, vs, i, out, hv, h => by
    unfold Prelude.inflateSeqLoop at h
    have snoc : ∀ y, P y → ∀ x ∈ vs ++ [y], P x := by
      intro y hy x hx
      rcases List.mem_append.mp hx with hx | hx
      · exact hv x hx
      · simp only [List.mem_singleton] at hx; subst hx; exact hy
    split at h
    · split at h
      · rename_i y hy
        exact inflateSeqLoop_mem P hs n _ _ out (snoc y (hs y (mem_iter_of_index hy))) h
      · simp only [reduceCtorEq] at h
    · split at h
      · rename_i y hy
        exact inflateSeqLoop_mem P hs n _ _ out (snoc y (hv y (List.mem_of_getElem? hy))) h
      · simp only [reduceCtorEq] at h

theorem inflateRangeLoop_mem {α : Type} (P : α → Prop) {conv : Nat → α} {len start : Nat} :
    ∀ (n : Nat) (vs : List α) (iter : List Nat) (i : Nat) (out : List α), (∀ x ∈ vs, P x) →
    (∀ k ∈ iter, P (conv k)) →
    Prelude.inflateRangeLoop conv len start vs iter i n = .ok out → ∀ x ∈ out, P x
  | 0, vs, iter, i, out, hv, hi, h => by
    simp only [Prelude.inflateRangeLoop, Panicky.ok.injEq] at h; subst h; exact hv
  | n + 1, vs, k :: iter, i, out, hv, hi, h => by
    unfold Prelude.inflateRangeLoop at h
    refine inflateRangeLoop_mem P n _ _ _ out ?_ (fun x hx => hi x (List.mem_cons_of_mem _ hx)) h
    intro x hx
    rcases List.mem_append.mp hx with hx | hx
    · exact hv x hx
    · simp only [List.mem_singleton] at hx; subst hx; exact hi k List.mem_cons_self
  | n + 1, vs, [], i, out, hv, hi, h => by
    unfold Prelude.inflateRangeLoop at h
    split at h
    · simp only [reduceCtorEq] at h
    · split at h
      · rename_i y hy
        refine inflateRangeLoop_mem P n _ _ _ out ?_ hi h
        intro x hx
        rcases List.mem_append.mp hx with hx | hx
        · exact hv x hx
        · simp only [List.mem_singleton] at hx; subst hx; exact hv _ (List.mem_of_getElem? hy)
      · simp only [reduceCtorEq] at h

theorem hasType_inflateOf {v r : Value} {u : ValueType} {i n : Nat} (h : v.HasType σ (.seq u))
    (hr : Expr.inflateOf v i n = .ok r) : r.HasType σ (.seq u) := by
  unfold Expr.inflateOf at hr
  split at hr
  · rename_i s hs
    obtain ⟨vs, h1, hr⟩ := Panicky.bind_eq_ok.mp hr
    simp only [Panicky.ok.injEq] at hr
    subst hr
    exact hasType_seq.mpr ⟨u, rfl, inflateSeqLoop_mem _ (h.items hs) n [] 0 vs (by simp) h1⟩
  · rename_i a b hs
    obtain ⟨vs, h1, hr⟩ := Panicky.bind_eq_ok.mp hr
    simp only [Panicky.ok.injEq] at hr
    subst hr
    refine hasType_seq.mpr ⟨u, rfl, inflateRangeLoop_mem _ n [] _ 0 vs (by simp) ?_ h1⟩
    intro k hk
    have hk := List.mem_of_mem_drop hk
    refine h.items hs _ ?_
    simp only [ValueSeq.items, List.mem_map]
    exact ⟨k, hk, rfl⟩
  · simp only [reduceCtorEq] at hr

theorem hasType_appendOf {v w r : Value} {u : ValueType} (h1 : v.HasType σ (.seq u))
    (h2 : w.HasType σ (.seq u)) (hr : Expr.appendOf v w = .ok r) : r.HasType σ (.seq u) := by
  unfold Expr.appendOf at hr
  split at hr
  · rename_i s0 hs0
    split at hr
    · rename_i s1 hs1
      split at hr
      · simp only [Panicky.ok.injEq] at hr; subst hr; exact h2
      · split at hr
        · simp only [Panicky.ok.injEq] at hr; subst hr; exact h1
        · obtain ⟨s, ha, hr⟩ := Panicky.bind_eq_ok.mp hr
          simp only [Panicky.ok.injEq] at hr
          subst hr
          refine hasType_seq.mpr ⟨u, rfl, ?_⟩
          obtain ⟨a, rfl⟩ : ∃ a, s0 = .vals a := by
            cases s0 with
            | vals a => exact ⟨a, rfl⟩
            | range => simp only [ValueSeq.append, reduceCtorEq] at ha
          obtain ⟨b, rfl⟩ : ∃ b, s1 = .vals b := by
            cases s1 with
            | vals a => exact ⟨a, rfl⟩
            | range => simp only [ValueSeq.append, reduceCtorEq] at ha
          simp only [ValueSeq.append, Panicky.ok.injEq] at ha
          have ia := h1.items hs0
          have ib := h2.items hs1
          simp only [ValueSeq.items] at ia ib
          subst ha
          intro x hx
          unfold SeqKind.append at hx
          split at hx
          · exact ib x hx
          · split at hx
            · exact ia x hx
            · simp only [SeqKind.iter] at hx
              rcases List.mem_append.mp hx with hx | hx
              · exact ia x (by cases a <;> exact hx)
              · exact ib x (by cases b <;> exact hx)
    · simp only [reduceCtorEq] at hr
  · simp only [reduceCtorEq] at hr

theorem flatMapLoop_all {f : Value → Panicky Value} {t u : ValueType}
    (hf : ∀ a r, a.HasType σ t → f a = .ok r → r.HasType σ (.seq u)) :
    ∀ (rest vs out : List Value), (∀ x ∈ vs, x.HasType σ u) → (∀ x ∈ rest, x.HasType σ t) →
    Expr.flatMapLoop f vs rest = .ok out → ∀ x ∈ out, x.HasType σ u
  | [], vs, out, hv, hr, h => by
    simp only [Expr.flatMapLoop, Panicky.ok.injEq] at h; subst h; exact hv
  | a :: rest, vs, out, hv, hr, h => by
    unfold Expr.flatMapLoop at h
    obtain ⟨r, h1, h⟩ := Panicky.bind_eq_ok.mp h
    split at h
    · rename_i s hs
      refine flatMapLoop_all hf rest _ out ?_ (fun x hx => hr x (List.mem_cons_of_mem _ hx)) h
      intro x hx
      rcases List.mem_append.mp hx with hx | hx
      · exact hv x hx
      · exact (hf a r (hr a List.mem_cons_self) h1).items hs x hx
    · simp only [reduceCtorEq] at h

theorem flatMapAccumLoop_all {f : Value → Panicky Value} {t u ta tacc : ValueType} (hle : ∀ v : Value, v.HasType σ tacc → v.HasType σ ta)
    (hf : ∀ a r, a.HasType σ (.tuple [ta, t]) → f a = .ok r → r.HasType σ (.tuple [tacc, .seq u])) :
    ∀ (rest : List Value) (acc : Value) (vs out : List Value), acc.HasType σ ta →
    (∀ x ∈ vs, x.HasType σ u) → (∀ x ∈ rest, x.HasType σ t) →
    Expr.flatMapAccumLoop f acc vs rest = .ok out → ∀ x ∈ out, x.HasType σ u
  | [], acc, vs, out, ha, hv, hr, h => by
    simp only [Expr.flatMapAccumLoop, Panicky.ok.injEq] at h; subst h; exact hv
  | a :: rest, acc, vs, out, ha, hv, hr, h => by
    unfold Expr.flatMapAccumLoop at h
    obtain ⟨r, h1, h⟩ := Panicky.bind_eq_ok.mp h
    have ht := hf _ r (by
      simp only [HasType, HaveTypes]
      exact ⟨_, rfl, ha, hr a List.mem_cons_self, trivial⟩) h1
    split at h
    · rename_i acc' vn
      simp only [HasType, ValueType.tuple.injEq] at ht
      obtain ⟨ts, e, ht⟩ := ht
      subst e
      simp only [HaveTypes] at ht
      obtain ⟨u', e, hvn⟩ := hasType_seq.mp ht.2.1
      cases e
      refine flatMapAccumLoop_all hle hf rest _ _ out (hle _ ht.1) ?_
        (fun x hx => hr x (List.mem_cons_of_mem _ hx)) h
      intro x hx
      rcases List.mem_append.mp hx with hx | hx
      · exact hv x hx
      · exact hvn x hx
    · simp only [reduceCtorEq] at h

theorem leftFoldLoop_all {f : Value → Panicky Value} {t ta tr : ValueType} (hle : ∀ v : Value, v.HasType σ tr → v.HasType σ ta)
    (hf : ∀ a r, a.HasType σ (.tuple [ta, t]) → f a = .ok r → r.HasType σ tr) :
    ∀ (rest : List Value) (acc : Value) (out : Value), acc.HasType σ ta →
    (∀ x ∈ rest, x.HasType σ t) → Expr.leftFoldLoop f acc rest = .ok out → out.HasType σ ta
  | [], acc, out, ha, hr, h => by
    simp only [Expr.leftFoldLoop, Panicky.ok.injEq] at h; subst h; exact ha
  | a :: rest, acc, out, ha, hr, h => by
    unfold Expr.leftFoldLoop at h
    obtain ⟨r, h1, h⟩ := Panicky.bind_eq_ok.mp h
    have ht := hf _ r (by
      simp only [HasType, HaveTypes]
      exact ⟨_, rfl, ha, hr a List.mem_cons_self, trivial⟩) h1
    exact leftFoldLoop_all hle hf rest r out (hle _ ht) (fun x hx => hr x (List.mem_cons_of_mem _ hx)) h

theorem flatMapListLoop_all {f : Value → Panicky Value} {t u ty : ValueType} (hle : ∀ v : Value, v.HasType σ u → v.HasType σ ty)
    (hf : ∀ a r, a.HasType σ (.tuple [.seq ty, t]) → f a = .ok r → r.HasType σ (.seq u)) :
    ∀ (rest vs out : List Value), (∀ x ∈ vs, x.HasType σ u) → (∀ x ∈ rest, x.HasType σ t) →
    Expr.flatMapListLoop f vs rest = .ok out → ∀ x ∈ out, x.HasType σ u
  | [], vs, out, hv, hr, h => by
    simp only [Expr.flatMapListLoop, Panicky.ok.injEq] at h; subst h; exact hv
  | a :: rest, vs, out, hv, hr, h => by
    unfold Expr.flatMapListLoop at h
    obtain ⟨r, h1, h⟩ := Panicky.bind_eq_ok.mp h
    have ht := hf _ r (by
      simp only [HasType, HaveTypes]
      refine ⟨_, rfl, ?_, hr a List.mem_cons_self, trivial⟩
      exact ⟨_, rfl, allHave_iff.mpr fun x hx => hle x (hv x hx)⟩) h1
    split at h
    · rename_i vn
      obtain ⟨u', e, hvn⟩ := hasType_seq.mp ht
      cases e
      refine flatMapListLoop_all hle hf rest _ out ?_ (fun x hx => hr x (List.mem_cons_of_mem _ hx)) h
      intro x hx
      rcases List.mem_append.mp hx with hx | hx
      · exact hv x hx
      · exact hvn x hx
    · simp only [reduceCtorEq] at h

theorem hasType_findByKeyOf {sorted : Bool} {f : Value → Panicky Value} {q r : Value} {s : SeqKind Value}
    {t : ValueType} (hs : (Value.seq s).HasType σ (.seq t)) (h : Expr.findByKeyOf sorted f q s = .ok r) :
    r.HasType σ (.option t) := by
  unfold Expr.findByKeyOf at h
  obtain ⟨ix, h⟩ : ∃ ix : Option Nat, (match ix with
      | some i => (s.index i >>= fun v => Panicky.ok (Value.optSome v))
      | none => Panicky.ok Value.optNone) = Panicky.ok r := by
    cases sorted <;> simp only [if_true, Bool.false_eq_true, if_false] at h <;>
      exact (Panicky.bind_eq_ok.mp h).elim fun ix h => ⟨ix, h.2⟩
  cases ix with
  | none =>
    simp only [Panicky.ok.injEq] at h; subst h
    simp only [HasType]; exact ⟨t, rfl⟩
  | some i =>
    obtain ⟨x, h1, h⟩ := Panicky.bind_eq_ok.mp h
    simp only [Panicky.ok.injEq] at h; subst h
    simp only [HasType]
    obtain ⟨u, e, hs⟩ := hasType_seq.mp hs
    cases e
    exact ⟨t, rfl, hs x (mem_iter_of_index h1)⟩

end Value

end Doodle
