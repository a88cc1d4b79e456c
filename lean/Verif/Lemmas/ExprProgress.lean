import Verif.Lemmas.Progress

/-! Progress of well-typed expressions. -/

namespace Doodle
open ValueType (Le LeList LeFields LeMap WF WFList WFMap)
open Num (BitWidth)

variable {δ : Type}

theorem Slack.basic_fallbacks : Slack.basic.fallbacks ≠ .typed := by decide

theorem Expr.prog_of {e : Expr} {s : Scope δ} {Γ : TypeScope} {t : ValueType}
    (hp : (∃ v, e.eval s = .ok v) ∨ Faults s e) (hs : e.Sound δ .basic Γ t) (ha : s.Agrees .basic Γ) :
    (∃ v, e.eval s = .ok v ∧ v.HasType .basic t) ∨ Faults s e := by
  rcases hp with ⟨v, hv⟩ | h
  · exact .inl ⟨v, hv, hs.2 s v ha hv⟩
  · exact .inr h

theorem Expr.gives_lambda {s : Scope δ} {name : String} {body : Expr} {a b : Value} :
    (Expr.lambda name body).evalLambda s a = .ok b ↔ body.Gives (.single name a s) b := by
  constructor
  · intro h
    obtain ⟨v, hv, rfl⟩ := Expr.evalLambda_eq h
    exact ⟨v, hv, rfl⟩
  · rintro ⟨v, hv, rfl⟩
    unfold Expr.evalLambda
    rw [hv]; rfl

theorem Expr.lambda_panic {s : Scope δ} {name : String} {body : Expr} {a : Value} :
    (Expr.lambda name body).evalLambda s a = .panic ↔ body.eval (.single name a s) = .panic := by
  unfold Expr.evalLambda
  rcases Panicky.cases (body.eval (.single name a s)) with ⟨v, hv⟩ | hv
  · rw [hv]
    exact ⟨fun h => (by cases h), fun h => (by cases h)⟩
  · rw [hv]
    exact ⟨fun _ => rfl, fun _ => rfl⟩

theorem ValueType.elem_ok {t u : ValueType} (h : t.elemI = .ok u) : t = .seq u := ValueType.elemI_eq h

theorem FoldChain.imp {α β : Type} {r r' : α → β → α → Prop} (h : ∀ a x b, r a x b → r' a x b) :
    ∀ {a : α} {xs : List β} {b : α}, FoldChain r a xs b → FoldChain r' a xs b := by
  intro a xs b hc
  induction hc with
  | nil => exact .nil
  | cons h1 _ ih => exact .cons (h _ _ _ h1) ih

theorem ValueType.arithI_bool {op : Arith} {t1 t2 t : ValueType} (hop : ¬ (op ≠ .boolAnd ∧ op ≠ .boolOr))
    (h : ValueType.arithI op t1 t2 = .ok t) : t1 = .base .bool ∧ t2 = .base .bool := by
  cases op with
  | boolAnd =>
    simp only [arithI] at h
    split at h
    · exact ⟨rfl, rfl⟩
    · simp only [reduceCtorEq] at h
  | boolOr =>
    simp only [arithI] at h
    split at h
    · exact ⟨rfl, rfl⟩
    · simp only [reduceCtorEq] at h
  | _ => exact (hop ⟨by decide, by decide⟩).elim

set_option maxHeartbeats 4000000 in
mutual
theorem Expr.progress : ∀ (e : Expr) (Γ : TypeScope) (t : ValueType), Γ.WF → e.Kept .basic Γ →
    e.inferType Γ = .ok t → ∀ s : Scope δ, s.Agrees .basic Γ → s.Covers Γ →
    (∃ v, e.eval s = .ok v) ∨ Faults s e
  | .var name, Γ, t, hΓ, hk, h, s, ha, hc => by
    simp only [inferType] at h
    obtain ⟨v, hv⟩ := hc name t (TypeScope.getValue_eq h)
    exact .inl ⟨v, by simp only [eval, hv, Panicky.unwrap]⟩
  | .bool b, Γ, t, hΓ, hk, h, s, ha, hc => .inl ⟨.bool b, by simp only [eval]⟩
  | .lit w n, Γ, t, hΓ, hk, h, s, ha, hc => .inl ⟨.num (.fixed w) n, by simp only [eval]⟩
  | .numeric n, Γ, t, hΓ, hk, h, s, ha, hc => by
    simp only [Kept, Slack.basic, Bool.false_eq_true, false_and] at hk
  | .tuple es, Γ, t, hΓ, hk, h, s, ha, hc => by
    simp only [inferType] at h
    simp only [Kept] at hk
    obtain ⟨ts, h1, h⟩ := Outcome.bind_eq_ok.mp h
    rcases Expr.progressList es Γ ts hΓ hk h1 s ha hc with ⟨vs, hvs⟩ | ⟨x, hx, hf⟩
    · exact .inl ⟨.tuple vs, by simp only [eval, hvs]; rfl⟩
    · exact .inr (.operand hx hf)
  | .tupleProj head i, Γ, t, hΓ, hk, h, s, ha, hc => by
    simp only [inferType] at h
    simp only [Kept] at hk
    obtain ⟨t0, h1, h⟩ := Outcome.bind_eq_ok.mp h
    obtain ⟨ts, rfl, hi⟩ := ValueType.tupleProjI_eq h
    rcases Expr.prog_of (Expr.progress head Γ _ hΓ hk h1 s ha hc)
      (Expr.infer_sound Slack.basic_fallbacks head Γ _ hΓ hk h1) ha with ⟨v, hv, ht⟩ | hf
    · obtain ⟨vs, e, hvs⟩ := Value.canon ht
      left
      have hl : i < ts.length := (List.getElem?_eq_some_iff.mp hi).1
      have hl' : i < vs.length := by rw [hvs.length]; exact hl
      exact ⟨vs[i], by
        simp only [eval, hv, Panicky.ok_bind, e, Value.tupleProj, List.getElem?_eq_getElem hl', Panicky.unwrap]⟩
    · exact .inr (.operand (by simp [operands]) hf)
  | .record fs, Γ, t, hΓ, hk, h, s, ha, hc => by
    simp only [inferType] at h
    simp only [Kept] at hk
    obtain ⟨ts, h1, h⟩ := Outcome.bind_eq_ok.mp h
    rcases Expr.progressFields fs Γ ts hΓ hk h1 s ha hc with ⟨vs, hvs⟩ | ⟨x, hx, hf⟩
    · exact .inl ⟨.record vs, by simp only [eval, hvs]; rfl⟩
    · exact .inr (.operand hx hf)
  | .recordProj head l, Γ, t, hΓ, hk, h, s, ha, hc => by
    simp only [inferType] at h
    simp only [Kept] at hk
    obtain ⟨t0, h1, h⟩ := Outcome.bind_eq_ok.mp h
    obtain ⟨ts, rfl, hi⟩ := ValueType.recordProjI_eq h
    rcases Expr.prog_of (Expr.progress head Γ _ hΓ hk h1 s ha hc)
      (Expr.infer_sound Slack.basic_fallbacks head Γ _ hΓ hk h1) ha with ⟨v, hv, ht⟩ | hf
    · obtain ⟨vs, e, hvs⟩ := Value.canon ht
      obtain ⟨x, hx⟩ := hvs.find_some hi
      exact .inl ⟨x, by simp only [eval, hv, Panicky.ok_bind, e, Value.recordProj, hx, Panicky.unwrap]⟩
    · exact .inr (.operand (by simp [operands]) hf)
  | .variant label x, Γ, t, hΓ, hk, h, s, ha, hc => by
    simp only [inferType] at h
    simp only [Kept] at hk
    obtain ⟨t0, h1, h⟩ := Outcome.bind_eq_ok.mp h
    rcases Expr.progress x Γ _ hΓ hk h1 s ha hc with ⟨v, hv⟩ | hf
    · exact .inl ⟨_, by simp only [eval, hv, Panicky.ok_bind]; rfl⟩
    · exact .inr (.operand (by simp [operands]) hf)
  | .seq es, Γ, t, hΓ, hk, h, s, ha, hc => by
    simp only [inferType] at h
    simp only [Kept] at hk
    obtain ⟨t0, h1, h⟩ := Outcome.bind_eq_ok.mp h
    rcases Expr.progressSeq es Γ .any t0 hΓ hk h1 s ha hc with ⟨vs, hvs⟩ | ⟨x, hx, hf⟩
    · exact .inl ⟨.seq (.strict vs), by simp only [eval, hvs]; rfl⟩
    · exact .inr (.operand hx hf)
  | .match_ head branches, Γ, t, hΓ, hk, h, s, ha, hc => by
    simp only [inferType] at h
    simp only [Kept] at hk
    split at h
    · simp only [reduceCtorEq] at h
    · obtain ⟨th, h1, h⟩ := Outcome.bind_eq_ok.mp h
      have hso := Expr.infer_sound (δ := δ) Slack.basic_fallbacks head Γ th hΓ hk.1 h1
      rcases Expr.prog_of (Expr.progress head Γ _ hΓ hk.1 h1 s ha hc) hso ha with ⟨v, hv, ht⟩ | hf
      · rcases Expr.progressBranches branches Γ th .any t hΓ hso.1 (hk.2 th h1) h s v ha hc ht with
          ⟨r, hr⟩ | hn | ⟨pre, p, e, post, bs, hb, hpre, hp, hf⟩
        · exact .inl ⟨r, by simp only [eval, hv, Panicky.ok_bind]; exact hr⟩
        · exact .inr (.noBranch hv hn)
        · rw [hb]; exact .inr (.branch hv hpre hp hf)
      · exact .inr (.operand (by simp [operands]) hf)
  | .destructure head pat body, Γ, t, hΓ, hk, h, s, ha, hc => by
    simp only [inferType] at h
    simp only [Kept] at hk
    obtain ⟨th, h1, h⟩ := Outcome.bind_eq_ok.mp h
    obtain ⟨Γ', h2, h⟩ := Outcome.bind_eq_ok.mp h
    have hso := Expr.infer_sound (δ := δ) Slack.basic_fallbacks head Γ th hΓ hk.1 h1
    rcases Expr.prog_of (Expr.progress head Γ _ hΓ hk.1 h1 s ha hc) hso ha with ⟨v, hv, ht⟩ | hf
    · cases hm : v.matchesPat pat with
      | none => exact .inr (.mismatch hv hm)
      | some bs =>
        rcases Expr.progress body Γ' t (Pattern.build_wf pat th Γ Γ' h2 hso.1 hΓ) (hk.2 th Γ' h1 h2) h
          (s.withBindings bs) (Pattern.matches_agrees h2 hm ht ha) (Pattern.matches_covers h2 hm ht hc) with
          ⟨r, hr⟩ | hf
        · exact .inl ⟨r.coerceMapped, by simp only [eval, hv, Panicky.ok_bind, hm, hr]⟩
        · exact .inr (.destructure hv hm hf)
    · exact .inr (.operand (by simp [operands]) hf)
  | .lambda _ _, Γ, t, hΓ, hk, h, s, ha, hc => by
    simp only [inferType, reduceCtorEq] at h
  | .intRel r x y, Γ, t, hΓ, hk, h, s, ha, hc => by
    simp only [inferType] at h
    simp only [Kept] at hk
    obtain ⟨t1, h1, h⟩ := Outcome.bind_eq_ok.mp h
    obtain ⟨t2, h2, h⟩ := Outcome.bind_eq_ok.mp h
    obtain ⟨t3, h3, h⟩ := Outcome.bind_eq_ok.mp h
    obtain ⟨hn, rfl⟩ := ValueType.needNumeric_eq h
    have so1 := Expr.infer_sound (δ := δ) Slack.basic_fallbacks x Γ _ hΓ hk.1 h1
    have so2 := Expr.infer_sound (δ := δ) Slack.basic_fallbacks y Γ _ hΓ hk.2 h2
    rcases Expr.prog_of (Expr.progress x Γ _ hΓ hk.1 h1 s ha hc) so1 ha with ⟨v1, hv1, ht1⟩ | hf
    · rcases Expr.prog_of (Expr.progress y Γ _ hΓ hk.2 h2 s ha hc) so2 ha with ⟨v2, hv2, ht2⟩ | hf
      · obtain ⟨_, l1, l2⟩ := ValueType.unify_upper t1 t2 t3 so1.1 so2.1 (ValueType.unifyI_eq h3)
        obtain ⟨w, n1, e1, rfl⟩ := Value.canon_numeric (ht1.mono l1) hn
        obtain ⟨n2, e2, _⟩ := Value.canon_le ht2 l2
        exact .inl ⟨_, by simp only [eval, hv1, hv2, Panicky.ok_bind, e1, e2, Value.intRel, if_true]; rfl⟩
      · exact .inr (.operand (by simp [operands]) hf)
    · exact .inr (.operand (by simp [operands]) hf)
  | .arith op x y, Γ, t, hΓ, hk, h, s, ha, hc => by
    simp only [inferType] at h
    simp only [Kept] at hk
    obtain ⟨t1, h1, h⟩ := Outcome.bind_eq_ok.mp h
    obtain ⟨t2, h2, h⟩ := Outcome.bind_eq_ok.mp h
    have so1 := Expr.infer_sound (δ := δ) Slack.basic_fallbacks x Γ _ hΓ hk.1 h1
    have so2 := Expr.infer_sound (δ := δ) Slack.basic_fallbacks y Γ _ hΓ hk.2 h2
    rcases Expr.prog_of (Expr.progress x Γ _ hΓ hk.1 h1 s ha hc) so1 ha with ⟨v1, hv1, ht1⟩ | hf
    · rcases Expr.prog_of (Expr.progress y Γ _ hΓ hk.2 h2 s ha hc) so2 ha with ⟨v2, hv2, ht2⟩ | hf
      · by_cases hop : op ≠ .boolAnd ∧ op ≠ .boolOr
        · have hA : ValueType.arithI op t1 t2 = (t1.unifyI t2 >>= fun t => t.needNumeric t) := by
            cases op <;> first | rfl | exact (hop.1 rfl).elim | exact (hop.2 rfl).elim
          rw [hA] at h
          obtain ⟨t3, h3, h⟩ := Outcome.bind_eq_ok.mp h
          obtain ⟨hn, rfl⟩ := ValueType.needNumeric_eq h
          obtain ⟨_, l1, l2⟩ := ValueType.unify_upper t1 t2 t3 so1.1 so2.1 (ValueType.unifyI_eq h3)
          obtain ⟨w, n1, e1, rfl⟩ := Value.canon_numeric (ht1.mono l1) hn
          obtain ⟨n2, e2, _⟩ := Value.canon_le ht2 l2
          rcases Value.arithNum_progress n1.isLt n2.isLt hop with ⟨r, hr⟩ | hr
          · left
            refine ⟨r, ?_⟩
            simp only [eval, hv1, hv2, Panicky.ok_bind, e1, e2]
            cases op <;> first
              | exact (hop.1 rfl).elim
              | exact (hop.2 rfl).elim
              | (simp only [Value.arith, if_true]; exact hr)
          · exact .inr (.arith ⟨n1.isLt, v1, hv1, e1⟩ ⟨n2.isLt, v2, hv2, e2⟩ hr)
        · obtain ⟨rfl, rfl⟩ := ValueType.arithI_bool hop h
          obtain ⟨b1, e1⟩ := Value.canon ht1
          obtain ⟨b2, e2⟩ := Value.canon ht2
          left
          cases op <;> first
            | exact (hop (by decide)).elim
            | exact ⟨_, by simp only [eval, hv1, hv2, Panicky.ok_bind, e1, e2, Value.arith]; rfl⟩
      · exact .inr (.operand (by simp [operands]) hf)
    · exact .inr (.operand (by simp [operands]) hf)
  | .unary op x, Γ, t, hΓ, hk, h, s, ha, hc => by
    simp only [inferType] at h
    simp only [Kept] at hk
    obtain ⟨t1, h1, h⟩ := Outcome.bind_eq_ok.mp h
    have so1 := Expr.infer_sound (δ := δ) Slack.basic_fallbacks x Γ _ hΓ hk h1
    rcases Expr.prog_of (Expr.progress x Γ _ hΓ hk h1 s ha hc) so1 ha with ⟨v1, hv1, ht1⟩ | hf
    · cases op with
      | boolNot =>
        simp only [ValueType.unaryI] at h
        split at h
        · obtain ⟨b1, e1⟩ := Value.canon ht1
          exact .inl ⟨_, by simp only [eval, hv1, Panicky.ok_bind, e1, Value.unary]; rfl⟩
        · simp only [reduceCtorEq] at h
      | intSucc =>
        obtain ⟨hn, rfl⟩ := ValueType.needNumeric_eq h
        obtain ⟨w, n1, e1, rfl⟩ := Value.canon_numeric ht1 hn
        rcases Value.mkNum_cases (.fixed w) (n1.val + 1) with ⟨hlt, hm⟩ | ⟨hge, _⟩
        · exact .inl ⟨_, by simp only [eval, hv1, Panicky.ok_bind, e1, Value.unary]; exact hm⟩
        · exact .inr (.unary ⟨n1.isLt, v1, hv1, e1⟩ hge)
      | intPred =>
        obtain ⟨hn, rfl⟩ := ValueType.needNumeric_eq h
        obtain ⟨w, n1, e1, rfl⟩ := Value.canon_numeric ht1 hn
        by_cases h0 : 1 ≤ n1.val
        · obtain ⟨r, hr⟩ := Value.mkNum_ok (k := .fixed w) (n := n1.val - 1)
            (Nat.lt_of_le_of_lt (Nat.sub_le _ _) n1.isLt)
          exact .inl ⟨r, by simp only [eval, hv1, Panicky.ok_bind, e1, Value.unary, if_pos h0]; exact hr⟩
        · refine .inr (.unary ⟨n1.isLt, v1, hv1, e1⟩ ?_)
          simp only [UnaryFault]; omega
    · exact .inr (.operand (by simp [operands]) hf)
  | .asNum w x, Γ, t, hΓ, hk, h, s, ha, hc => by
    simp only [inferType] at h
    simp only [Kept] at hk
    obtain ⟨t1, h1, h⟩ := Outcome.bind_eq_ok.mp h
    have so1 := Expr.infer_sound (δ := δ) Slack.basic_fallbacks x Γ _ hΓ hk h1
    rcases Expr.prog_of (Expr.progress x Γ _ hΓ hk h1 s ha hc) so1 ha with ⟨v1, hv1, ht1⟩ | hf
    · obtain ⟨hn, rfl⟩ := ValueType.needNumeric_eq h
      obtain ⟨w', n1, e1, rfl⟩ := Value.canon_numeric ht1 hn
      rcases Value.mkNum_cases (.fixed w) n1.val with ⟨hlt, hm⟩ | ⟨hge, _⟩
      · exact .inl ⟨_, by simp only [eval, hv1, Panicky.ok_bind, e1, Expr.castTo]; exact hm⟩
      · exact .inr (.asNum ⟨n1.isLt, v1, hv1, e1⟩ hge)
    · exact .inr (.operand (by simp [operands]) hf)
  | .asChar x, Γ, t, hΓ, hk, h, s, ha, hc => by
    simp only [inferType] at h
    simp only [Kept] at hk
    obtain ⟨t1, h1, h⟩ := Outcome.bind_eq_ok.mp h
    have so1 := Expr.infer_sound (δ := δ) Slack.basic_fallbacks x Γ _ hΓ hk h1
    rcases Expr.prog_of (Expr.progress x Γ _ hΓ hk h1 s ha hc) so1 ha with ⟨v1, hv1, ht1⟩ | hf
    · obtain ⟨hn, rfl⟩ := ValueType.needNumeric_eq h
      obtain ⟨w', n1, e1, rfl⟩ := Value.canon_numeric ht1 hn
      by_cases hlt : n1.val < u32Card
      · exact .inl ⟨_, by simp only [eval, hv1, Panicky.ok_bind, e1, Expr.castChar, if_pos hlt]; rfl⟩
      · exact .inr (.asChar ⟨n1.isLt, v1, hv1, e1⟩ (Nat.not_lt.mp hlt))
    · exact .inr (.operand (by simp [operands]) hf)
  | .fromBytes w be x, Γ, t, hΓ, hk, h, s, ha, hc => by
    simp only [inferType] at h
    simp only [Kept] at hk
    obtain ⟨t1, h1, h⟩ := Outcome.bind_eq_ok.mp h
    obtain ⟨_, h2, h⟩ := Outcome.bind_eq_ok.mp h
    have so1 := Expr.infer_sound (δ := δ) Slack.basic_fallbacks x Γ _ hΓ hk h1
    rcases Expr.prog_of (Expr.progress x Γ _ hΓ hk h1 s ha hc) so1 ha with ⟨v1, hv1, ht1⟩ | hf
    · unfold ValueType.needBytes at h2
      split at h2
      · rename_i ts
        split at h2
        · rename_i hts
          obtain ⟨vs, e, hvs⟩ := Value.canon ht1
          rcases Expr.u8List_progress hvs hts.2 with ⟨bs, hb, hl⟩ | ⟨v, hv, hw⟩
          · left
            have hlen : bs.length * 8 = w.bits := by
              rw [hl, hts.1]
              cases w <;> rfl
            have hlt : (if be then fromBeBytes bs else Prelude.fromLeBytes bs) < (UKind.fixed w).card := by
              show _ < 2 ^ w.bits
              rw [← hlen, Nat.mul_comm]
              cases be
              · exact fromLe_lt bs
              · exact fromBe_lt bs
            obtain ⟨r, hr⟩ := Value.mkNum_ok hlt
            exact ⟨r, by simp only [eval, hv1, Panicky.ok_bind, e, Expr.wordOf, hb, if_pos hlen]; exact hr⟩
          · exact .inr (.wrappedByte ⟨v1, hv1, e⟩ hv hw)
        · simp only [reduceCtorEq] at h2
      · simp only [reduceCtorEq] at h2
    · exact .inr (.operand (by simp [operands]) hf)
  | .seqLength x, Γ, t, hΓ, hk, h, s, ha, hc => by
    simp only [inferType] at h
    simp only [Kept] at hk
    obtain ⟨t1, h1, h⟩ := Outcome.bind_eq_ok.mp h
    obtain ⟨t2, h2, h⟩ := Outcome.bind_eq_ok.mp h
    rw [ValueType.elemI_eq h2] at h1
    have so1 := Expr.infer_sound (δ := δ) Slack.basic_fallbacks x Γ _ hΓ hk h1
    rcases Expr.prog_of (Expr.progress x Γ _ hΓ hk h1 s ha hc) so1 ha with ⟨v1, hv1, ht1⟩ | hf
    · obtain ⟨q, e, _⟩ := Value.canon ht1
      obtain ⟨r, hr⟩ := Value.mkNum_ok (k := .fixed .b32) (n := q.len % u32Card) (Nat.mod_lt _ (by decide))
      exact .inl ⟨r, by
        simp only [eval, hv1, Panicky.ok_bind, e, Expr.lengthOf, Value.getSequence, Value.ValueSeq.len]; exact hr⟩
    · exact .inr (.operand (by simp [operands]) hf)
  | .seqIx x y, Γ, t, hΓ, hk, h, s, ha, hc => by
    simp only [inferType] at h
    simp only [Kept] at hk
    obtain ⟨t1, h1, h⟩ := Outcome.bind_eq_ok.mp h
    obtain ⟨t2, h2, h⟩ := Outcome.bind_eq_ok.mp h
    obtain ⟨t3, h3, h⟩ := Outcome.bind_eq_ok.mp h
    obtain ⟨_, h4, h⟩ := Outcome.bind_eq_ok.mp h
    rw [ValueType.elemI_eq h2] at h1
    have so1 := Expr.infer_sound (δ := δ) Slack.basic_fallbacks x Γ _ hΓ hk.1 h1
    have so2 := Expr.infer_sound (δ := δ) Slack.basic_fallbacks y Γ _ hΓ hk.2 h3
    rcases Expr.prog_of (Expr.progress x Γ _ hΓ hk.1 h1 s ha hc) so1 ha with ⟨v1, hv1, ht1⟩ | hf
    · rcases Expr.prog_of (Expr.progress y Γ _ hΓ hk.2 h3 s ha hc) so2 ha with ⟨v2, hv2, ht2⟩ | hf
      · obtain ⟨q, e1, _⟩ := Value.canon ht1
        obtain ⟨n, e2⟩ := Value.canon_u32 ht2 h4
        by_cases hlt : n.val < q.iter.length
        · obtain ⟨r, hr, _⟩ := SeqKind.index_ok hlt
          exact .inl ⟨r, by
            simp only [eval, hv1, hv2, Panicky.ok_bind, e1, e2, Value.unwrapUsize, Expr.indexOf,
              Value.getSequence]; exact hr⟩
        · exact .inr (.seqIx ⟨v1, hv1, e1⟩ ⟨n.isLt, v2, hv2, e2⟩ (Nat.not_lt.mp hlt))
      · exact .inr (.operand (by simp [operands]) hf)
    · exact .inr (.operand (by simp [operands]) hf)
  | .subSeq x y z, Γ, t, hΓ, hk, h, s, ha, hc => by
    simp only [inferType] at h
    simp only [Kept] at hk
    obtain ⟨t1, h1, h⟩ := Outcome.bind_eq_ok.mp h
    obtain ⟨t2, h2, h⟩ := Outcome.bind_eq_ok.mp h
    obtain ⟨t3, h3, h⟩ := Outcome.bind_eq_ok.mp h
    obtain ⟨t4, h4, h⟩ := Outcome.bind_eq_ok.mp h
    obtain ⟨_, h5, h⟩ := Outcome.bind_eq_ok.mp h
    obtain ⟨_, h6, h⟩ := Outcome.bind_eq_ok.mp h
    rw [ValueType.elemI_eq h2] at h1
    have so1 := Expr.infer_sound (δ := δ) Slack.basic_fallbacks x Γ _ hΓ hk.1 h1
    have so2 := Expr.infer_sound (δ := δ) Slack.basic_fallbacks y Γ _ hΓ hk.2.1 h3
    have so3 := Expr.infer_sound (δ := δ) Slack.basic_fallbacks z Γ _ hΓ hk.2.2 h4
    rcases Expr.prog_of (Expr.progress x Γ _ hΓ hk.1 h1 s ha hc) so1 ha with ⟨v1, hv1, ht1⟩ | hf
    · rcases Expr.prog_of (Expr.progress y Γ _ hΓ hk.2.1 h3 s ha hc) so2 ha with ⟨v2, hv2, ht2⟩ | hf
      · rcases Expr.prog_of (Expr.progress z Γ _ hΓ hk.2.2 h4 s ha hc) so3 ha with ⟨v3, hv3, ht3⟩ | hf
        · obtain ⟨q, e1, _⟩ := Value.canon ht1
          obtain ⟨a, e2⟩ := Value.canon_u32 ht2 h5
          obtain ⟨n, e3⟩ := Value.canon_u32 ht3 h6
          rcases q.subSeq_cases a.val n.val with ⟨r, hr⟩ | ⟨hlt, _⟩
          · exact .inl ⟨.seq r, by
              simp only [eval, hv1, hv2, hv3, Panicky.ok_bind, e1, e2, e3, Value.unwrapUsize, Expr.subSeqOf,
                Value.getSequence, hr]⟩
          · exact .inr (.subSeq ⟨v1, hv1, e1⟩ ⟨a.isLt, v2, hv2, e2⟩ ⟨n.isLt, v3, hv3, e3⟩ hlt)
        · exact .inr (.operand (by simp [operands]) hf)
      · exact .inr (.operand (by simp [operands]) hf)
    · exact .inr (.operand (by simp [operands]) hf)
  | .subSeqInflate x y z, Γ, t, hΓ, hk, h, s, ha, hc => by
    simp only [inferType] at h
    simp only [Kept] at hk
    obtain ⟨t1, h1, h⟩ := Outcome.bind_eq_ok.mp h
    obtain ⟨t2, h2, h⟩ := Outcome.bind_eq_ok.mp h
    obtain ⟨t3, h3, h⟩ := Outcome.bind_eq_ok.mp h
    obtain ⟨t4, h4, h⟩ := Outcome.bind_eq_ok.mp h
    obtain ⟨_, h5, h⟩ := Outcome.bind_eq_ok.mp h
    obtain ⟨_, h6, h⟩ := Outcome.bind_eq_ok.mp h
    rw [ValueType.elemI_eq h2] at h1
    have so1 := Expr.infer_sound (δ := δ) Slack.basic_fallbacks x Γ _ hΓ hk.1 h1
    have so2 := Expr.infer_sound (δ := δ) Slack.basic_fallbacks y Γ _ hΓ hk.2.1 h3
    have so3 := Expr.infer_sound (δ := δ) Slack.basic_fallbacks z Γ _ hΓ hk.2.2 h4
    rcases Expr.prog_of (Expr.progress x Γ _ hΓ hk.1 h1 s ha hc) so1 ha with ⟨v1, hv1, ht1⟩ | hf
    · rcases Expr.prog_of (Expr.progress y Γ _ hΓ hk.2.1 h3 s ha hc) so2 ha with ⟨v2, hv2, ht2⟩ | hf
      · rcases Expr.prog_of (Expr.progress z Γ _ hΓ hk.2.2 h4 s ha hc) so3 ha with ⟨v3, hv3, ht3⟩ | hf
        · obtain ⟨q, e1, _⟩ := Value.canon ht1
          obtain ⟨a, e2⟩ := Value.canon_u32 ht2 h5
          obtain ⟨n, e3⟩ := Value.canon_u32 ht3 h6
          have done : ∀ {r}, Prelude.inflateSeq q a.val n.val = .ok r →
              ∃ v, (Expr.subSeqInflate x y z).eval s = .ok v := by
            intro r hr
            exact ⟨.seq (.strict r), by
              simp only [eval, hv1, hv2, hv3, Panicky.ok_bind, e1, e2, e3, Value.unwrapUsize, Expr.inflateOf,
                Value.getSequence, hr]⟩
          by_cases hlt : a.val < q.iter.length
          · obtain ⟨r, hr⟩ := inflateSeqLoop_ok hlt n.val [] 0 rfl
            exact .inl (done hr)
          · by_cases h0 : n.val = 0
            · exact .inl (done (r := []) (by unfold Prelude.inflateSeq; rw [h0]; rfl))
            · exact .inr (.subSeqInflate ⟨v1, hv1, e1⟩ ⟨a.isLt, v2, hv2, e2⟩ ⟨n.isLt, v3, hv3, e3⟩
                (Nat.not_lt.mp hlt) (by omega))
        · exact .inr (.operand (by simp [operands]) hf)
      · exact .inr (.operand (by simp [operands]) hf)
    · exact .inr (.operand (by simp [operands]) hf)
  | .flatMap f x, Γ, t, hΓ, hk, h, s, ha, hc => by
    match f, hk, h with
    | .lambda name body, hk, h =>
      simp only [inferType] at h
      simp only [Kept] at hk
      obtain ⟨ts, h1, h⟩ := Outcome.bind_eq_ok.mp h
      obtain ⟨t1, h2, h⟩ := Outcome.bind_eq_ok.mp h
      rw [ValueType.elemI_eq h2] at h1
      obtain ⟨tr, h3, h⟩ := Outcome.bind_eq_ok.mp h
      obtain ⟨t2, h4, h⟩ := Outcome.bind_eq_ok.mp h
      rw [ValueType.elemI_eq h4] at h3
      have so1 := Expr.infer_sound (δ := δ) Slack.basic_fallbacks x Γ _ hΓ hk.1 h1
      have hΓ' := hΓ.cons (name := name) so1.1.elem
      have so2 := Expr.infer_sound (δ := δ) Slack.basic_fallbacks body _ _ hΓ' (hk.2 t1 h1) h3
      rcases Expr.prog_of (Expr.progress x Γ _ hΓ hk.1 h1 s ha hc) so1 ha with ⟨v1, hv1, ht1⟩ | hf
      · obtain ⟨q, e1, hq⟩ := Value.canon ht1
        rcases Expr.flatMapLoop_progress (f := fun a => (Expr.lambda name body).evalLambda s a) q.iter [] (by
          intro v hv r hr
          obtain ⟨v', hv', rfl⟩ := Expr.gives_lambda.mp hr
          obtain ⟨q', e', _⟩ := Value.canon (so2.2 _ v' (ha.single (hq v hv)) hv')
          exact ⟨_, by rw [e']; rfl⟩) with ⟨r, hr⟩ | ⟨v, hv, hp⟩
        · exact .inl ⟨.seq (.strict r), by
            simp only [eval, hv1, Panicky.ok_bind, e1, Value.getSequence, Value.ValueSeq.items, hr]⟩
        · rcases Expr.progress body _ _ hΓ' (hk.2 t1 h1) h3 (.single name v s) (ha.single (hq v hv))
            (hc.single name v _) with ⟨r, hr⟩ | hf
          · have := Expr.lambda_panic.mp hp
            rw [hr] at this; cases this
          · exact .inr (.flatMap ⟨v1, hv1, e1⟩ hv hf)
      · exact .inr (.operand (by simp [operands]) hf)
  | .flatMapAccum f accum ty x, Γ, t, hΓ, hk, h, s, ha, hc => by
    match f, hk, h with
    | .lambda name body, hk, h =>
      simp only [inferType] at h
      simp only [Kept] at hk
      obtain ⟨ts, h1, h⟩ := Outcome.bind_eq_ok.mp h
      obtain ⟨t1, h2, h⟩ := Outcome.bind_eq_ok.mp h
      rw [ValueType.elemI_eq h2] at h1
      obtain ⟨t0, h3, h⟩ := Outcome.bind_eq_ok.mp h
      obtain ⟨ta, h4, h⟩ := Outcome.bind_eq_ok.mp h
      have h4 := ValueType.unifyI_eq h4
      obtain ⟨tr, h5, h⟩ := Outcome.bind_eq_ok.mp h
      split at h
      · rename_i tacc t2
        obtain ⟨kx, ka, kty, kb⟩ := hk
        obtain ⟨kb, kle⟩ := kb t1 t0 ta h1 h3 h4
        have kle := kle tacc t2 h5
        have so1 := Expr.infer_sound (δ := δ) Slack.basic_fallbacks x Γ _ hΓ kx h1
        have so0 := Expr.infer_sound (δ := δ) Slack.basic_fallbacks accum Γ _ hΓ ka h3
        obtain ⟨wa, la, _⟩ := ValueType.unify_upper t0 ty ta so0.1 kty h4
        have hΓ' := hΓ.cons (name := name) (.tuple (.cons wa (.cons so1.1.elem .nil)))
        have so2 := Expr.infer_sound (δ := δ) Slack.basic_fallbacks body _ _ hΓ' kb h5
        rcases Expr.prog_of (Expr.progress x Γ _ hΓ kx h1 s ha hc) so1 ha with ⟨v1, hv1, ht1⟩ | hf
        · rcases Expr.prog_of (Expr.progress accum Γ _ hΓ ka h3 s ha hc) so0 ha with ⟨a, hva, hta⟩ | hf
          · obtain ⟨q, e1, hq⟩ := Value.canon ht1
            have htup : ∀ {b v}, b.HasType .basic ta → v ∈ q.iter →
                (Value.tuple [b, v]).HasType .basic (.tuple [ta, t1]) := by
              intro b v hb hv
              simp only [Value.HasType, Value.HaveTypes]
              exact ⟨_, rfl, hb, hq v hv, trivial⟩
            rcases Expr.accumLoop_progress (f := fun a => (Expr.lambda name body).evalLambda s a)
              (P := fun v => v.HasType .basic ta) q.iter a.coerceMapped [] (hta.coerceMapped.mono la) (by
                intro b v r hb hv hr
                obtain ⟨v', hv', rfl⟩ := Expr.gives_lambda.mp hr
                obtain ⟨vs, e', hvs⟩ := Value.canon (so2.2 _ v' (ha.single (htup hb hv)) hv')
                match vs, hvs, e' with
                | [c, r], hvs, e' =>
                  simp only [Value.HaveTypes] at hvs
                  refine ⟨c, r, e', hvs.1.mono kle, ?_⟩
                  obtain ⟨q', eq', _⟩ := Value.canon hvs.2.1
                  by_cases hw : r.coerceMapped = r
                  · rw [hw] at eq'; exact .inl ⟨q', eq'⟩
                  · exact .inr hw
                | [], hvs, _ => simp only [Value.HaveTypes] at hvs
                | [_], hvs, _ => simp only [Value.HaveTypes, and_false] at hvs
                | _ :: _ :: _ :: _, hvs, _ => simp only [Value.HaveTypes, and_false] at hvs)
              with ⟨r, hr⟩ | ⟨pre, v, post, b, el, hch, hb, hv, hp⟩
            · exact .inl ⟨.seq (.strict r), by
                simp only [eval, hv1, hva, Panicky.ok_bind, e1, Expr.needSeq, hr]⟩
            · have hch' : FoldChain (AccumStep s name body) a.coerceMapped pre b :=
                hch.imp fun a x b ⟨q, h⟩ => ⟨q, Expr.gives_lambda.mp h⟩
              rcases hp with hp | ⟨c, r, hr, hw⟩
              · rcases Expr.progress body _ _ hΓ' kb h5 (.single name (.tuple [b, v]) s)
                  (ha.single (htup hb hv)) (hc.single name _ _) with ⟨r, hr⟩ | hf
                · have := Expr.lambda_panic.mp hp
                  rw [hr] at this; cases this
                · exact .inr (.flatMapAccum ⟨v1, hv1, e1⟩ el ⟨a, hva, rfl⟩ hch' hf)
              · exact .inr (.wrappedItems ⟨v1, hv1, e1⟩ el ⟨a, hva, rfl⟩ hch' (Expr.gives_lambda.mp hr) hw)
          · exact .inr (.operand (by simp [operands]) hf)
        · exact .inr (.operand (by simp [operands]) hf)
      · simp only [reduceCtorEq] at h
  | .leftFold f accum ty x, Γ, t, hΓ, hk, h, s, ha, hc => by
    match f, hk, h with
    | .lambda name body, hk, h =>
      simp only [inferType] at h
      simp only [Kept] at hk
      obtain ⟨ts, h1, h⟩ := Outcome.bind_eq_ok.mp h
      obtain ⟨t1, h2, h⟩ := Outcome.bind_eq_ok.mp h
      rw [ValueType.elemI_eq h2] at h1
      obtain ⟨t0, h3, h⟩ := Outcome.bind_eq_ok.mp h
      obtain ⟨ta, h4, h⟩ := Outcome.bind_eq_ok.mp h
      have h4 := ValueType.unifyI_eq h4
      obtain ⟨tr, h5, h⟩ := Outcome.bind_eq_ok.mp h
      obtain ⟨kx, ka, kty, kb⟩ := hk
      obtain ⟨kb, kle⟩ := kb t1 t0 ta h1 h3 h4
      have kle := kle tr h5
      have so1 := Expr.infer_sound (δ := δ) Slack.basic_fallbacks x Γ _ hΓ kx h1
      have so0 := Expr.infer_sound (δ := δ) Slack.basic_fallbacks accum Γ _ hΓ ka h3
      obtain ⟨wa, la, _⟩ := ValueType.unify_upper t0 ty ta so0.1 kty h4
      have hΓ' := hΓ.cons (name := name) (.tuple (.cons wa (.cons so1.1.elem .nil)))
      have so2 := Expr.infer_sound (δ := δ) Slack.basic_fallbacks body _ _ hΓ' kb h5
      rcases Expr.prog_of (Expr.progress x Γ _ hΓ kx h1 s ha hc) so1 ha with ⟨v1, hv1, ht1⟩ | hf
      · rcases Expr.prog_of (Expr.progress accum Γ _ hΓ ka h3 s ha hc) so0 ha with ⟨a, hva, hta⟩ | hf
        · obtain ⟨q, e1, hq⟩ := Value.canon ht1
          have htup : ∀ {b v}, b.HasType .basic ta → v ∈ q.iter →
              (Value.tuple [b, v]).HasType .basic (.tuple [ta, t1]) := by
            intro b v hb hv
            simp only [Value.HasType, Value.HaveTypes]
            exact ⟨_, rfl, hb, hq v hv, trivial⟩
          rcases Expr.leftFoldLoop_progress (f := fun a => (Expr.lambda name body).evalLambda s a)
            (P := fun v => v.HasType .basic ta) q.iter a.coerceMapped (hta.coerceMapped.mono la) (by
              intro b v r hb hv hr
              obtain ⟨v', hv', rfl⟩ := Expr.gives_lambda.mp hr
              exact (so2.2 _ v' (ha.single (htup hb hv)) hv').coerceMapped.mono kle)
            with ⟨r, hr⟩ | ⟨pre, v, post, b, el, hch, hb, hp⟩
          · exact .inl ⟨r, by
              simp only [eval, hv1, hva, Panicky.ok_bind, e1, Expr.needSeq]; exact hr⟩
          · rcases Expr.progress body _ _ hΓ' kb h5 (.single name (.tuple [b, v]) s)
              (ha.single (htup hb (by rw [el]; simp))) (hc.single name _ _) with ⟨r, hr⟩ | hf
            · have := Expr.lambda_panic.mp hp
              rw [hr] at this; cases this
            · exact .inr (.leftFold ⟨v1, hv1, e1⟩ el ⟨a, hva, rfl⟩
                (hch.imp fun a x b h => Expr.gives_lambda.mp h) hf)
        · exact .inr (.operand (by simp [operands]) hf)
      · exact .inr (.operand (by simp [operands]) hf)
  | .findByKey sorted f query x, Γ, t, hΓ, hk, h, s, ha, hc => by
    match f, hk, h with
    | .lambda name body, hk, h =>
      simp only [inferType] at h
      simp only [Kept] at hk
      obtain ⟨ts, h1, h⟩ := Outcome.bind_eq_ok.mp h
      obtain ⟨t1, h2, h⟩ := Outcome.bind_eq_ok.mp h
      rw [ValueType.elemI_eq h2] at h1
      obtain ⟨tq, h3, h⟩ := Outcome.bind_eq_ok.mp h
      obtain ⟨tk, h4, h⟩ := Outcome.bind_eq_ok.mp h
      obtain ⟨tu, h5, h⟩ := Outcome.bind_eq_ok.mp h
      split at h
      · rename_i b
        split at h <;> simp only [reduceCtorEq, Outcome.ok.injEq] at h
        rename_i hbn
        obtain ⟨kx, kq, kb⟩ := hk
        have so1 := Expr.infer_sound (δ := δ) Slack.basic_fallbacks x Γ _ hΓ kx h1
        have soq := Expr.infer_sound (δ := δ) Slack.basic_fallbacks query Γ _ hΓ kq h3
        have hΓ' := hΓ.cons (name := name) so1.1.elem
        have so2 := Expr.infer_sound (δ := δ) Slack.basic_fallbacks body _ _ hΓ' (kb t1 h1) h4
        obtain ⟨_, lk, lq⟩ := ValueType.unify_upper tk tq _ so2.1 soq.1 (ValueType.unifyI_eq h5)
        cases b with
        | bool => simp only [BaseType.isNumeric, Bool.false_eq_true] at hbn
        | char => simp only [BaseType.isNumeric, Bool.false_eq_true] at hbn
        | num w =>
          rcases Expr.prog_of (Expr.progress x Γ _ hΓ kx h1 s ha hc) so1 ha with ⟨v1, hv1, ht1⟩ | hf
          · rcases Expr.prog_of (Expr.progress query Γ _ hΓ kq h3 s ha hc) soq ha with ⟨vq, hvq, htq⟩ | hf
            · obtain ⟨q, e1, hq⟩ := Value.canon ht1
              obtain ⟨nq, eq, _⟩ := Value.canon_le htq lq
              rcases Expr.findByKeyOf_progress (sorted := sorted) (query := vq.coerceMapped)
                (f := fun a => (Expr.lambda name body).evalLambda s a) (q := q) (by
                  intro v hv k hr
                  obtain ⟨v', hv', rfl⟩ := Expr.gives_lambda.mp hr
                  obtain ⟨nk, ek, _⟩ := Value.canon_le (so2.2 _ v' (ha.single (hq v hv)) hv') lk
                  rw [eq, ek]
                  simp only [Value.compareAsKey, Value.eqKey, if_true]
                  exact ⟨⟨_, rfl⟩, _, rfl⟩) with ⟨r, hr⟩ | ⟨hp, v, hv, hpv⟩
              · exact .inl ⟨r, by
                  simp only [eval, hv1, hvq, Panicky.ok_bind, e1, Expr.needSeq]; exact hr⟩
              · rcases Expr.progress body _ _ hΓ' (kb t1 h1) h4 (.single name v s) (ha.single (hq v hv))
                  (hc.single name v _) with ⟨r, hr⟩ | hf
                · have := Expr.lambda_panic.mp hpv
                  rw [hr] at this; cases this
                · refine .inr (.findByKey ?_ ⟨v1, hv1, e1⟩ hv hf)
                  simp only [eval, hv1, hvq, Panicky.ok_bind, e1, Expr.needSeq]; exact hp
            · exact .inr (.operand (by simp [operands]) hf)
          · exact .inr (.operand (by simp [operands]) hf)
      · simp only [reduceCtorEq] at h
  | .flatMapList f ty x, Γ, t, hΓ, hk, h, s, ha, hc => by
    match f, hk, h with
    | .lambda name body, hk, h =>
      simp only [inferType] at h
      simp only [Kept] at hk
      obtain ⟨ts, h1, h⟩ := Outcome.bind_eq_ok.mp h
      obtain ⟨t1, h2, h⟩ := Outcome.bind_eq_ok.mp h
      rw [ValueType.elemI_eq h2] at h1
      obtain ⟨tr, h3, h⟩ := Outcome.bind_eq_ok.mp h
      obtain ⟨t2, h4, h⟩ := Outcome.bind_eq_ok.mp h
      rw [ValueType.elemI_eq h4] at h3
      obtain ⟨kx, kty, kb⟩ := hk
      obtain ⟨kb, kle⟩ := kb t1 h1
      have kle := kle t2 h3
      have so1 := Expr.infer_sound (δ := δ) Slack.basic_fallbacks x Γ _ hΓ kx h1
      have hΓ' := hΓ.cons (name := name) (.tuple (.cons (.seq kty) (.cons so1.1.elem .nil)))
      have so2 := Expr.infer_sound (δ := δ) Slack.basic_fallbacks body _ _ hΓ' kb h3
      rcases Expr.prog_of (Expr.progress x Γ _ hΓ kx h1 s ha hc) so1 ha with ⟨v1, hv1, ht1⟩ | hf
      · obtain ⟨q, e1, hq⟩ := Value.canon ht1
        have htup : ∀ {l : List Value} {v : Value}, (∀ x ∈ l, x.HasType .basic ty) → v ∈ q.iter →
            (Value.tuple [.seq (.strict l), v]).HasType .basic (.tuple [.seq ty, t1]) := by
          intro l v hl hv
          simp only [Value.HasType, Value.HaveTypes]
          exact ⟨_, rfl, ⟨_, rfl, Value.allHave_iff.mpr hl⟩, hq v hv, trivial⟩
        rcases Expr.listLoop_progress (f := fun a => (Expr.lambda name body).evalLambda s a)
          (P := fun l => ∀ x ∈ l, x.HasType .basic ty) q.iter [] (fun _ h => nomatch h) (by
            intro l v r hl hv hr
            obtain ⟨v', hv', rfl⟩ := Expr.gives_lambda.mp hr
            obtain ⟨q', e', hq'⟩ := Value.canon (so2.2 _ v' (ha.single (htup hl hv)) hv')
            refine ⟨q', e', fun x hx => ?_⟩
            rcases List.mem_append.mp hx with hx | hx
            · exact hl x hx
            · exact (hq' x hx).mono kle) with ⟨r, hr⟩ | ⟨pre, v, post, b, el, hch, hb, hp⟩
        · exact .inl ⟨.seq (.strict r), by
            simp only [eval, hv1, Panicky.ok_bind, e1, Expr.needSeq, hr]⟩
        · rcases Expr.progress body _ _ hΓ' kb h3 (.single name (.tuple [.seq (.strict b), v]) s)
            (ha.single (htup hb (by rw [el]; simp))) (hc.single name _ _) with ⟨r, hr⟩ | hf
          · have := Expr.lambda_panic.mp hp
            rw [hr] at this; cases this
          · exact .inr (.flatMapList ⟨v1, hv1, e1⟩ el
              (hch.imp fun a x b ⟨q, h, e⟩ => ⟨q, Expr.gives_lambda.mp h, e⟩) hf)
      · exact .inr (.operand (by simp [operands]) hf)
  | .enumFromTo a b, Γ, t, hΓ, hk, h, s, ha, hc => by
    simp only [Kept, Slack.basic, Bool.false_eq_true, false_and] at hk
  | .dup x y, Γ, t, hΓ, hk, h, s, ha, hc => by
    simp only [inferType] at h
    simp only [Kept] at hk
    obtain ⟨t1, h1, h⟩ := Outcome.bind_eq_ok.mp h
    obtain ⟨_, h2, h⟩ := Outcome.bind_eq_ok.mp h
    obtain ⟨t3, h3, h⟩ := Outcome.bind_eq_ok.mp h
    have so1 := Expr.infer_sound (δ := δ) Slack.basic_fallbacks x Γ _ hΓ hk.1 h1
    rcases Expr.prog_of (Expr.progress x Γ _ hΓ hk.1 h1 s ha hc) so1 ha with ⟨v1, hv1, ht1⟩ | hf
    · rcases Expr.progress y Γ _ hΓ hk.2 h3 s ha hc with ⟨v2, hv2⟩ | hf
      · obtain ⟨n, e1⟩ := Value.canon_u32 ht1 h2
        exact .inl ⟨_, by simp only [eval, hv1, hv2, Panicky.ok_bind, e1, Value.unwrapUsize]; rfl⟩
      · exact .inr (.operand (by simp [operands]) hf)
    · exact .inr (.operand (by simp [operands]) hf)
  | .liftSome x, Γ, t, hΓ, hk, h, s, ha, hc => by
    simp only [inferType] at h
    simp only [Kept] at hk
    obtain ⟨t0, h1, h⟩ := Outcome.bind_eq_ok.mp h
    rcases Expr.progress x Γ _ hΓ hk h1 s ha hc with ⟨v, hv⟩ | hf
    · exact .inl ⟨_, by simp only [eval, hv, Panicky.ok_bind]; rfl⟩
    · exact .inr (.operand (by simp [operands]) hf)
  | .liftNone, Γ, t, hΓ, hk, h, s, ha, hc => .inl ⟨.optNone, by simp only [eval]⟩
  | .append x y, Γ, t, hΓ, hk, h, s, ha, hc => by
    simp only [inferType] at h
    simp only [Kept] at hk
    obtain ⟨t1, h1, h⟩ := Outcome.bind_eq_ok.mp h
    obtain ⟨t2, h2, h⟩ := Outcome.bind_eq_ok.mp h
    obtain ⟨t3, h3, h⟩ := Outcome.bind_eq_ok.mp h
    obtain ⟨t4, h4, h⟩ := Outcome.bind_eq_ok.mp h
    rw [ValueType.elemI_eq h3] at h1
    rw [ValueType.elemI_eq h4] at h2
    have so1 := Expr.infer_sound (δ := δ) Slack.basic_fallbacks x Γ _ hΓ hk.1 h1
    have so2 := Expr.infer_sound (δ := δ) Slack.basic_fallbacks y Γ _ hΓ hk.2 h2
    rcases Expr.prog_of (Expr.progress x Γ _ hΓ hk.1 h1 s ha hc) so1 ha with ⟨v1, hv1, ht1⟩ | hf
    · rcases Expr.prog_of (Expr.progress y Γ _ hΓ hk.2 h2 s ha hc) so2 ha with ⟨v2, hv2, ht2⟩ | hf
      · obtain ⟨q1, e1, _⟩ := Value.canon ht1
        obtain ⟨q2, e2, _⟩ := Value.canon ht2
        left
        simp only [eval, hv1, hv2, Panicky.ok_bind, e1, e2, Expr.appendOf, Value.getSequence]
        split
        · exact ⟨_, rfl⟩
        · split
          · exact ⟨_, rfl⟩
          · exact ⟨_, rfl⟩
      · exact .inr (.operand (by simp [operands]) hf)
    · exact .inr (.operand (by simp [operands]) hf)

theorem Expr.progressList : ∀ (es : List Expr) (Γ : TypeScope) (ts : List ValueType), Γ.WF →
    Expr.KeptList .basic es Γ → Expr.inferList es Γ = .ok ts → ∀ s : Scope δ, s.Agrees .basic Γ → s.Covers Γ →
    (∃ vs, Expr.evalValues es s = .ok vs) ∨ ∃ x ∈ es, Faults s x
  | [], Γ, ts, hΓ, hk, h, s, ha, hc => .inl ⟨[], by simp only [evalValues]⟩
  | e :: es, Γ, ts, hΓ, hk, h, s, ha, hc => by
    simp only [inferList] at h
    simp only [KeptList] at hk
    obtain ⟨t, h1, h⟩ := Outcome.bind_eq_ok.mp h
    obtain ⟨ts', h2, h⟩ := Outcome.bind_eq_ok.mp h
    rcases Expr.progress e Γ _ hΓ hk.1 h1 s ha hc with ⟨v, hv⟩ | hf
    · rcases Expr.progressList es Γ ts' hΓ hk.2 h2 s ha hc with ⟨vs, hvs⟩ | ⟨x, hx, hf⟩
      · exact .inl ⟨_, by simp only [evalValues, hv, hvs, Panicky.ok_bind]; rfl⟩
      · exact .inr ⟨x, List.mem_cons_of_mem _ hx, hf⟩
    · exact .inr ⟨e, List.mem_cons_self, hf⟩

theorem Expr.progressSeq : ∀ (es : List Expr) (Γ : TypeScope) (acc t : ValueType), Γ.WF →
    Expr.KeptList .basic es Γ → Expr.inferSeq es Γ acc = .ok t → ∀ s : Scope δ, s.Agrees .basic Γ → s.Covers Γ →
    (∃ vs, Expr.evalValues es s = .ok vs) ∨ ∃ x ∈ es, Faults s x
  | [], Γ, acc, t, hΓ, hk, h, s, ha, hc => .inl ⟨[], by simp only [evalValues]⟩
  | e :: es, Γ, acc, t, hΓ, hk, h, s, ha, hc => by
    simp only [inferSeq] at h
    simp only [KeptList] at hk
    obtain ⟨t1, h1, h⟩ := Outcome.bind_eq_ok.mp h
    obtain ⟨acc', h2, h⟩ := Outcome.bind_eq_ok.mp h
    rcases Expr.progress e Γ _ hΓ hk.1 h1 s ha hc with ⟨v, hv⟩ | hf
    · rcases Expr.progressSeq es Γ acc' t hΓ hk.2 h s ha hc with ⟨vs, hvs⟩ | ⟨x, hx, hf⟩
      · exact .inl ⟨_, by simp only [evalValues, hv, hvs, Panicky.ok_bind]; rfl⟩
      · exact .inr ⟨x, List.mem_cons_of_mem _ hx, hf⟩
    · exact .inr ⟨e, List.mem_cons_self, hf⟩

theorem Expr.progressFields : ∀ (fs : List (String × Expr)) (Γ : TypeScope) (ts : List (String × ValueType)),
    Γ.WF → Expr.KeptFields .basic fs Γ → Expr.inferFields fs Γ = .ok ts → ∀ s : Scope δ,
    s.Agrees .basic Γ → s.Covers Γ →
    (∃ vs, Expr.evalFields fs s = .ok vs) ∨ ∃ x ∈ fs.map (·.2), Faults s x
  | [], Γ, ts, hΓ, hk, h, s, ha, hc => .inl ⟨[], by simp only [evalFields]⟩
  | (l, e) :: fs, Γ, ts, hΓ, hk, h, s, ha, hc => by
    simp only [inferFields] at h
    simp only [KeptFields] at hk
    obtain ⟨t, h1, h⟩ := Outcome.bind_eq_ok.mp h
    obtain ⟨ts', h2, h⟩ := Outcome.bind_eq_ok.mp h
    rcases Expr.progress e Γ _ hΓ hk.1 h1 s ha hc with ⟨v, hv⟩ | hf
    · rcases Expr.progressFields fs Γ ts' hΓ hk.2 h2 s ha hc with ⟨vs, hvs⟩ | ⟨x, hx, hf⟩
      · exact .inl ⟨_, by simp only [evalFields, hv, hvs, Panicky.ok_bind]; rfl⟩
      · exact .inr ⟨x, List.mem_cons_of_mem _ hx, hf⟩
    · exact .inr ⟨e, List.mem_cons_self, hf⟩

theorem Expr.progressBranches : ∀ (branches : List (Pattern × Expr)) (Γ : TypeScope) (th acc t : ValueType),
    Γ.WF → th.WF → Expr.KeptBranches .basic branches Γ th → Expr.inferBranches branches Γ th acc = .ok t →
    ∀ (s : Scope δ) (v : Value), s.Agrees .basic Γ → s.Covers Γ → v.HasType .basic th →
    (∃ r, Expr.evalBranches branches s v = .ok r) ∨ (∀ b ∈ branches, v.matchesPat b.1 = none) ∨
    ∃ pre p e post bs, branches = pre ++ (p, e) :: post ∧ (∀ b ∈ pre, v.matchesPat b.1 = none) ∧
      v.matchesPat p = some bs ∧ Faults (s.withBindings bs) e
  | [], Γ, th, acc, t, hΓ, hw, hk, h, s, v, ha, hc, ht => .inr (.inl (fun _ h => nomatch h))
  | (p, e) :: rest, Γ, th, acc, t, hΓ, hw, hk, h, s, v, ha, hc, ht => by
    simp only [inferBranches] at h
    simp only [KeptBranches] at hk
    obtain ⟨Γ', h1, h⟩ := Outcome.bind_eq_ok.mp h
    obtain ⟨t1, h2, h⟩ := Outcome.bind_eq_ok.mp h
    obtain ⟨acc', h3, h⟩ := Outcome.bind_eq_ok.mp h
    cases hm : v.matchesPat p with
    | some bs =>
      rcases Expr.progress e Γ' t1 (Pattern.build_wf p th Γ Γ' h1 hw hΓ) (hk.1 Γ' h1) h2
        (s.withBindings bs) (Pattern.matches_agrees h1 hm ht ha) (Pattern.matches_covers h1 hm ht hc) with
        ⟨r, hr⟩ | hf
      · exact .inl ⟨_, by simp only [evalBranches, hm, hr, Panicky.ok_bind]; rfl⟩
      · exact .inr (.inr ⟨[], p, e, rest, bs, rfl, (fun _ h => nomatch h), hm, hf⟩)
    | none =>
      rcases Expr.progressBranches rest Γ th acc' t hΓ hw hk.2 h s v ha hc ht with
        ⟨r, hr⟩ | hn | ⟨pre, p', e', post, bs, hb, hpre, hp, hf⟩
      · exact .inl ⟨r, by simp only [evalBranches, hm]; exact hr⟩
      · refine .inr (.inl fun b hb => ?_)
        rcases List.mem_cons.mp hb with rfl | hb
        · exact hm
        · exact hn b hb
      · refine .inr (.inr ⟨(p, e) :: pre, p', e', post, bs, by rw [hb]; rfl, fun b hb' => ?_, hp, hf⟩)
        rcases List.mem_cons.mp hb' with rfl | hb'
        · exact hm
        · exact hpre b hb'
end

/-! ### Faults are panics -/

theorem Expr.evalValues_panic {s : Scope δ} {x : Expr} : ∀ {es : List Expr}, x ∈ es → x.eval s = .panic →
    Expr.evalValues es s = .panic
  | e :: es, hm, hp => by
    unfold Expr.evalValues
    rcases List.mem_cons.mp hm with rfl | hm
    · rw [hp]; rfl
    · refine Panicky.bind_panic fun v _ => ?_
      rw [Expr.evalValues_panic hm hp]; rfl

theorem Expr.evalFields_panic {s : Scope δ} {x : Expr} : ∀ {fs : List (String × Expr)}, x ∈ fs.map (·.2) →
    x.eval s = .panic → Expr.evalFields fs s = .panic
  | (l, e) :: fs, hm, hp => by
    unfold Expr.evalFields
    simp only [List.map_cons] at hm
    rcases List.mem_cons.mp hm with rfl | hm
    · rw [hp]; rfl
    · refine Panicky.bind_panic fun v _ => ?_
      rw [Expr.evalFields_panic hm hp]; rfl

theorem Expr.operand_panic {s : Scope δ} {e x : Expr} (hm : x ∈ e.operands) (hp : x.eval s = .panic) :
    e.eval s = .panic := by
  cases e <;> simp only [operands, List.mem_cons, List.not_mem_nil, or_false] at hm <;>
    simp only [eval] <;> first
    | (subst hm; rw [hp]; rfl; done)
    | (rw [Expr.evalValues_panic hm hp]; rfl; done)
    | (rw [Expr.evalFields_panic hm hp]; rfl; done)
    | (rcases hm with rfl | rfl
       · rw [hp]; rfl
       · refine Panicky.bind_panic fun _ _ => ?_
         first
           | (rw [hp]; rfl; done)
           | (refine Panicky.bind_panic fun _ _ => ?_
              rw [hp]; rfl; done)
       done)
    | (rcases hm with rfl | rfl
       · refine Panicky.bind_panic fun _ _ => ?_
         first
           | (rw [hp]; rfl; done)
           | (refine Panicky.bind_panic fun _ _ => ?_
              rw [hp]; rfl; done)
       · rw [hp]; rfl
       done)
    | (rcases hm with rfl | rfl | rfl
       · rw [hp]; rfl
       · refine Panicky.bind_panic fun _ _ => ?_
         rw [hp]; rfl
       · refine Panicky.bind_panic fun _ _ => ?_
         refine Panicky.bind_panic fun _ _ => ?_
         refine Panicky.bind_panic fun _ _ => ?_
         rw [hp]; rfl)

theorem Expr.evalBranches_none {s : Scope δ} {v : Value} : ∀ {branches : List (Pattern × Expr)},
    (∀ b ∈ branches, v.matchesPat b.1 = none) → Expr.evalBranches branches s v = .panic
  | [], _ => by simp only [evalBranches]
  | (p, e) :: rest, h => by
    simp only [evalBranches, h (p, e) List.mem_cons_self]
    exact Expr.evalBranches_none fun b hb => h b (List.mem_cons_of_mem _ hb)

theorem Expr.evalBranches_first {s : Scope δ} {v : Value} {p : Pattern} {e : Expr} {bs : List (String × Value)}
    {post : List (Pattern × Expr)} (hm : v.matchesPat p = some bs) (hp : e.eval (s.withBindings bs) = .panic) :
    ∀ {pre : List (Pattern × Expr)}, (∀ b ∈ pre, v.matchesPat b.1 = none) →
      Expr.evalBranches (pre ++ (p, e) :: post) s v = .panic
  | [], _ => by simp only [List.nil_append, evalBranches, hm, hp]; rfl
  | (p', e') :: pre, h => by
    simp only [List.cons_append, evalBranches, h (p', e') List.mem_cons_self]
    exact Expr.evalBranches_first hm hp fun b hb => h b (List.mem_cons_of_mem _ hb)

theorem inflateSeqLoop_panic {α : Type} {q : SeqKind α} {a n : Nat} (h : q.iter.length ≤ a) (hn : 0 < n) :
    Prelude.inflateSeq q a n = .panic := by
  cases n with
  | zero => omega
  | succ n =>
    rw [SeqKind.iter_length] at h
    unfold Prelude.inflateSeq Prelude.inflateSeqLoop
    rw [if_neg (by omega)]
    rfl

theorem Value.arith_numbers {op : Arith} {w : BitWidth} {a b : Fin (UKind.fixed w).card}
    (h : ArithFault op w a b) : Value.arith op (.num (.fixed w) a) (.num (.fixed w) b) = .panic := by
  have := Value.arithFault_panic h
  cases op <;> first
    | (simp only [Value.arith, if_true]; exact this)
    | (simp only [ArithFault] at h)

/-- every fault is a panic -/
theorem Faults.panics {s : Scope δ} {e : Expr} (h : Faults s e) : e.eval s = .panic := by
  induction h with
  | operand hm _ ih => exact Expr.operand_panic hm ih
  | arith hx hy hf =>
    obtain ⟨_, v1, hv1, e1⟩ := hx
    obtain ⟨_, v2, hv2, e2⟩ := hy
    simp only [Expr.eval, hv1, hv2, Panicky.ok_bind, e1, e2]
    exact Value.arith_numbers hf
  | unary hx hf =>
    rename_i op x w a
    obtain ⟨_, v1, hv1, e1⟩ := hx
    simp only [Expr.eval, hv1, Panicky.ok_bind, e1]
    cases op with
    | boolNot => exact hf.elim
    | intSucc =>
      simp only [Value.unary, Value.mkNum]
      exact dif_neg (Nat.not_lt.mpr hf)
    | intPred =>
      simp only [UnaryFault] at hf
      simp only [Value.unary]
      subst hf
      rfl
  | asNum hx hf =>
    obtain ⟨_, v1, hv1, e1⟩ := hx
    simp only [Expr.eval, hv1, Panicky.ok_bind, e1, Expr.castTo, Value.mkNum]
    exact dif_neg (Nat.not_lt.mpr hf)
  | asChar hx hf =>
    obtain ⟨_, v1, hv1, e1⟩ := hx
    simp only [Expr.eval, hv1, Panicky.ok_bind, e1, Expr.castChar]
    exact if_neg (Nat.not_lt.mpr hf)
  | wrappedByte hx hm hw =>
    obtain ⟨v1, hv1, e1⟩ := hx
    simp only [Expr.eval, hv1, Panicky.ok_bind, e1, Expr.wordOf, Expr.u8List_wrapped hm hw]
  | seqIx hx hy hf =>
    obtain ⟨v1, hv1, e1⟩ := hx
    obtain ⟨_, v2, hv2, e2⟩ := hy
    simp only [Expr.eval, hv1, hv2, Panicky.ok_bind, e1, e2, Value.unwrapUsize, Expr.indexOf,
      Value.getSequence]
    exact SeqKind.index_panic hf
  | subSeq hx hy hz hf =>
    obtain ⟨v1, hv1, e1⟩ := hx
    obtain ⟨_, v2, hv2, e2⟩ := hy
    obtain ⟨_, v3, hv3, e3⟩ := hz
    simp only [Expr.eval, hv1, hv2, hv3, Panicky.ok_bind, e1, e2, e3, Value.unwrapUsize, Expr.subSeqOf,
      Value.getSequence, SeqKind.subSeq_panic hf]
    rfl
  | subSeqInflate hx hy hz hf hn =>
    obtain ⟨v1, hv1, e1⟩ := hx
    obtain ⟨_, v2, hv2, e2⟩ := hy
    obtain ⟨_, v3, hv3, e3⟩ := hz
    simp only [Expr.eval, hv1, hv2, hv3, Panicky.ok_bind, e1, e2, e3, Value.unwrapUsize, Expr.inflateOf,
      Value.getSequence, inflateSeqLoop_panic hf hn]
    rfl
  | noBranch hv hn => simp only [Expr.eval, hv, Panicky.ok_bind]; exact Expr.evalBranches_none hn
  | branch hv hpre hp _ ih =>
    simp only [Expr.eval, hv, Panicky.ok_bind]; exact Expr.evalBranches_first hp ih hpre
  | mismatch hv hm => simp only [Expr.eval, hv, Panicky.ok_bind, hm]
  | destructure hv hm _ ih => simp only [Expr.eval, hv, Panicky.ok_bind, hm, ih]; rfl
  | flatMap hx hm _ ih =>
    obtain ⟨v1, hv1, e1⟩ := hx
    simp only [Expr.eval, hv1, Panicky.ok_bind, e1, Value.getSequence, Value.ValueSeq.items]
    rw [Expr.flatMapLoop_panic [] hm (Expr.lambda_panic.mpr ih)]
    rfl
  | leftFold hx el hacc hch _ ih =>
    obtain ⟨v1, hv1, e1⟩ := hx
    obtain ⟨a, hva, ea⟩ := hacc
    simp only [Expr.eval, hv1, hva, Panicky.ok_bind, e1, ea, Expr.needSeq, el]
    exact Expr.leftFoldLoop_panic (Expr.lambda_panic.mpr ih) (hch.imp fun a x b h => Expr.gives_lambda.mpr h)
  | flatMapAccum hx el hacc hch _ ih =>
    obtain ⟨v1, hv1, e1⟩ := hx
    obtain ⟨a, hva, ea⟩ := hacc
    simp only [Expr.eval, hv1, hva, Panicky.ok_bind, e1, ea, Expr.needSeq, el]
    rw [Expr.accumLoop_panic (.inl (Expr.lambda_panic.mpr ih)) []
      (hch.imp fun a x b ⟨q, h⟩ => ⟨q, Expr.gives_lambda.mpr h⟩)]
    rfl
  | wrappedItems hx el hacc hch hb hw =>
    obtain ⟨v1, hv1, e1⟩ := hx
    obtain ⟨a, hva, ea⟩ := hacc
    simp only [Expr.eval, hv1, hva, Panicky.ok_bind, e1, ea, Expr.needSeq, el]
    rw [Expr.accumLoop_panic (.inr ⟨_, _, Expr.gives_lambda.mpr hb, hw⟩) []
      (hch.imp fun a x b ⟨q, h⟩ => ⟨q, Expr.gives_lambda.mpr h⟩)]
    rfl
  | flatMapList hx el hch _ ih =>
    obtain ⟨v1, hv1, e1⟩ := hx
    simp only [Expr.eval, hv1, Panicky.ok_bind, e1, Expr.needSeq, el]
    rw [Expr.listLoop_panic (Expr.lambda_panic.mpr ih)
      (hch.imp fun a x b ⟨q, h, e⟩ => ⟨q, Expr.gives_lambda.mpr h, e⟩)]
    rfl
  | findByKey hp _ _ _ _ => exact hp

end Doodle
