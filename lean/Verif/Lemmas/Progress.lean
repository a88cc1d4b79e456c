import Verif.Lemmas.ExprSound
import Verif.Spec.Progress

/-! Lemmas for progress of well-typed expressions. -/

namespace Doodle
open ValueType (Le LeList LeFields LeMap WF WFList WFMap)
open Num (BitWidth)

namespace Panicky

theorem cases {α : Type} (x : Panicky α) : (∃ a, x = .ok a) ∨ x = .panic := by
  cases x with
  | ok a => exact .inl ⟨a, rfl⟩
  | panic => exact .inr rfl

theorem ok_bind {α β : Type} (a : α) (f : α → Panicky β) : (Panicky.ok a >>= f) = f a := rfl

theorem panic_bind {α β : Type} (f : α → Panicky β) : (Panicky.panic >>= f) = .panic := rfl

theorem bind_panic {α β : Type} {x : Panicky α} {f : α → Panicky β} (h : ∀ a, x = .ok a → f a = .panic) :
    (x >>= f) = .panic := by
  cases x with
  | ok a => exact h a rfl
  | panic => rfl

end Panicky

namespace Value

/-- what a value of a type looks like without `Numeric`, `usize`, range and fallback values -/
def Canon (v : Value) : ValueType → Prop
  | .base .bool => ∃ b, v = .bool b
  | .base (.num w) => ∃ n, v = .num (.fixed w) n
  | .tuple ts => ∃ vs, v = .tuple vs ∧ HaveTypes .basic vs ts
  | .record ts => ∃ fs, v = .record fs ∧ FieldsHave .basic fs ts
  | .seq u => ∃ q, v = .seq q ∧ ∀ x ∈ q.iter, x.HasType .basic u
  | .any => False
  | .empty => False
  | .numericHole => False
  | .signed _ => False
  | _ => True

theorem canon : ∀ {v : Value} {t : ValueType}, v.HasType .basic t → v.coerceMapped.Canon t
  | .mapped _ v, t, h => by
    simp only [HasType] at h; simp only [Value.coerceMapped]; exact canon h
  | .branch _ v, t, h => by
    simp only [HasType] at h; simp only [Value.coerceMapped]; exact canon h
  | .permitOk v, t, h => by
    simp only [HasType] at h; simp only [Value.coerceMapped]; exact canon h
  | .bool b, t, h => by
    simp only [HasType] at h; subst h; exact ⟨b, rfl⟩
  | .num (.fixed w) n, t, h => by
    simp only [HasType] at h; subst h; exact ⟨n, rfl⟩
  | .num .usize n, t, h => by
    simp only [HasType, Slack.basic, Bool.false_eq_true, false_and] at h
  | .char c, t, h => by
    simp only [HasType] at h; subst h; exact trivial
  | .numeric _, t, h => by
    simp only [HasType, Slack.basic, Bool.false_eq_true, false_and] at h
  | .view _, t, h => by
    simp only [HasType] at h; subst h; exact trivial
  | .phantom, t, h => by
    simp only [HasType] at h; obtain ⟨u, rfl⟩ := h; exact trivial
  | .enumFromTo _ _, t, h => by
    simp only [HasType, Slack.basic, Bool.false_eq_true, false_and, and_false, exists_false] at h
  | .optNone, t, h => by
    simp only [HasType] at h; obtain ⟨u, rfl⟩ := h; exact trivial
  | .optSome _, t, h => by
    simp only [HasType] at h; obtain ⟨u, rfl, _⟩ := h; exact trivial
  | .tuple vs, t, h => by
    simp only [HasType] at h; obtain ⟨u, rfl, h⟩ := h; exact ⟨vs, rfl, h⟩
  | .record vs, t, h => by
    simp only [HasType] at h; obtain ⟨u, rfl, h⟩ := h; exact ⟨vs, rfl, h⟩
  | .variant _ _, t, h => by
    simp only [HasType] at h; obtain ⟨_, _, rfl, _⟩ := h; exact trivial
  | .seq q, t, h => by
    obtain ⟨u, rfl, h'⟩ := hasType_seq.mp h; exact ⟨q, rfl, h'⟩
  | .permitErrNone, t, h => by
    simp only [HasType, Slack.basic, reduceCtorEq] at h
  | .permitErr _, t, h => by
    simp only [HasType, Slack.basic, ne_eq, not_true_eq_false, false_and] at h

theorem canon_numeric {v : Value} {t : ValueType} (h : v.HasType .basic t) (hn : t.isNumeric = true) :
    ∃ w n, v.coerceMapped = .num (.fixed w) n ∧ t = .base (.num w) := by
  have hc := canon h
  cases t <;> simp only [ValueType.isNumeric, Bool.false_eq_true] at hn
  · rename_i b
    cases b <;> simp only [BaseType.isNumeric, Bool.false_eq_true] at hn
    obtain ⟨n, hn⟩ := hc
    exact ⟨_, n, hn, rfl⟩
  · exact hc.elim
  · exact hc.elim

theorem canon_le {v : Value} {t : ValueType} {w : BitWidth} (h : v.HasType .basic t)
    (hl : Le t (.base (.num w))) : ∃ n, v.coerceMapped = .num (.fixed w) n ∧ t = .base (.num w) := by
  have hc := canon h
  cases hl with
  | any => exact hc.elim
  | empty => exact hc.elim
  | numericHole => exact hc.elim
  | base => obtain ⟨n, hn⟩ := hc; exact ⟨n, hn, rfl⟩

theorem canon_u32 {v : Value} {t : ValueType} (h : v.HasType .basic t) (ht : t.needU32 = .ok ()) :
    ∃ n, v.coerceMapped = .num (.fixed .b32) n := by
  have hc := canon h
  unfold ValueType.needU32 at ht
  split at ht
  · obtain ⟨n, hn⟩ := hc; exact ⟨n, hn⟩
  · simp only [reduceCtorEq] at ht

theorem HaveTypes.length {σ : Slack} : ∀ {vs : List Value} {ts : List ValueType}, HaveTypes σ vs ts →
    vs.length = ts.length
  | [], [], _ => rfl
  | [], _ :: _, h => by simp only [HaveTypes] at h
  | _ :: _, [], h => by simp only [HaveTypes] at h
  | v :: vs, t :: ts, h => by
    simp only [HaveTypes] at h
    simp only [List.length_cons, HaveTypes.length h.2]

theorem FieldsHave.find_some {σ : Slack} {label : String} : ∀ {vs : List (String × Value)}
    {ts : List (String × ValueType)} {t : ValueType}, FieldsHave σ vs ts →
    (ts.find? (fun f => label == f.1)).map (·.2) = some t →
    ∃ v, (vs.find? (fun f => label == f.1)).map (·.2) = some v
  | [], [], t, _, h => by simp at h
  | [], _ :: _, t, h, _ => by simp only [FieldsHave] at h
  | x :: vs, [], t, h, _ => by simp only [FieldsHave] at h
  | (l, x) :: vs, (k, y) :: ts, t, h, ht => by
    simp only [FieldsHave] at h
    obtain ⟨rfl, h1, h2⟩ := h
    rw [List.find?_cons] at ht ⊢
    cases hl : label == l with
    | true => exact ⟨x, rfl⟩
    | false =>
      simp only [hl] at ht
      exact FieldsHave.find_some h2 ht

theorem mkNum_cases (k : UKind) (n : Nat) :
    (∃ h, mkNum k n = .ok (.num k ⟨n, h⟩)) ∨ (k.card ≤ n ∧ mkNum k n = .panic) := by
  unfold mkNum
  by_cases h : n < k.card
  · exact .inl ⟨h, by rw [dif_pos h]⟩
  · exact .inr ⟨by omega, by rw [dif_neg h]⟩

theorem mkNum_ok {k : UKind} {n : Nat} (h : n < k.card) : ∃ v, mkNum k n = .ok v := by
  unfold mkNum; rw [dif_pos h]; exact ⟨_, rfl⟩

/-- arithmetic on two numbers of one width -/
theorem arithNum_progress {op : Arith} {w : BitWidth} {a b : Nat} (ha : a < 2 ^ w.bits) (hb : b < 2 ^ w.bits)
    (hop : op ≠ .boolAnd ∧ op ≠ .boolOr) :
    (∃ v, arithNum op (.fixed w) a b = .ok v) ∨ ArithFault op w a b := by
  have hc : (UKind.fixed w).card = 2 ^ w.bits := rfl
  have mk : ∀ n, (∃ v, mkNum (.fixed w) n = .ok v) ∨ 2 ^ w.bits ≤ n := by
    intro n
    rcases mkNum_cases (.fixed w) n with ⟨h, e⟩ | ⟨h, _⟩
    · exact .inl ⟨_, e⟩
    · exact .inr h
  cases op <;> simp only [arithNum, ArithFault]
  · exact mk _
  · by_cases h : b ≤ a
    · rw [if_pos h]; exact .inl (mkNum_ok (by omega))
    · exact .inr (by omega)
  · exact mk _
  · by_cases h : b = 0
    · exact .inr h
    · rw [if_neg h]; exact .inl (mkNum_ok (Nat.lt_of_le_of_lt (Nat.div_le_self _ _) (by omega)))
  · by_cases h : b = 0
    · exact .inr h
    · rw [if_neg h]; exact .inl (mkNum_ok (Nat.lt_of_le_of_lt (Nat.mod_le _ _) (by omega)))
  · exact .inl (mkNum_ok (Nat.and_lt_two_pow _ hb))
  · exact .inl (mkNum_ok (Nat.or_lt_two_pow ha hb))
  · by_cases h : b % u32Card < (UKind.fixed w).bits
    · rw [if_pos h]; exact .inl (mkNum_ok (Nat.mod_lt _ (UKind.card_pos _)))
    · exact .inr (Nat.not_lt.mp h)
  · by_cases h : b % u32Card < (UKind.fixed w).bits
    · rw [if_pos h]; exact .inl (mkNum_ok (Nat.lt_of_le_of_lt (by rw [Nat.shiftRight_eq_div_pow]; exact Nat.div_le_self _ _) ha))
    · exact .inr (Nat.not_lt.mp h)
  · exact (hop.2 rfl).elim
  · exact (hop.1 rfl).elim

theorem arithFault_panic {op : Arith} {w : BitWidth} {a b : Nat} (h : ArithFault op w a b) :
    arithNum op (.fixed w) a b = .panic := by
  have mk : ∀ n, 2 ^ w.bits ≤ n → mkNum (.fixed w) n = .panic := by
    intro n hn
    unfold mkNum
    have hc : (UKind.fixed w).card = 2 ^ w.bits := rfl
    rw [dif_neg (by omega)]
  cases op <;> simp only [ArithFault] at h <;> simp only [arithNum]
  · exact mk _ h
  · rw [if_neg (by omega)]
  · exact mk _ h
  · rw [if_pos h]
  · rw [if_pos h]
  · exact if_neg (Nat.not_lt.mpr h)
  · exact if_neg (Nat.not_lt.mpr h)

end Value

/-! ### Words from bytes -/

theorem fromBe_lt (l : List UInt8) : fromBeBytes l < 2 ^ (8 * l.length) := by
  have : ∀ (l : List UInt8) (acc k : Nat), acc < 2 ^ k →
      l.foldl (fun acc b => acc * 256 + b.toNat) acc < 2 ^ (k + 8 * l.length) := by
    intro l
    induction l with
    | nil => intro acc k h; simpa using h
    | cons b l ih =>
      intro acc k h
      simp only [List.foldl_cons, List.length_cons]
      have hb := b.toNat_lt
      have h1 : acc * 256 + b.toNat < 2 ^ (k + 8) := by
        have : 2 ^ (k + 8) = 2 ^ k * 256 := by rw [Nat.pow_add]
        omega
      have := ih _ _ h1
      have e : k + 8 * (l.length + 1) = k + 8 + 8 * l.length := by omega
      rw [e]; exact this
  have := this l 0 0 (by decide)
  simpa [fromBeBytes] using this

theorem fromLe_lt (l : List UInt8) : Prelude.fromLeBytes l < 2 ^ (8 * l.length) := by
  induction l with
  | nil => simp [Prelude.fromLeBytes]
  | cons b l ih =>
    simp only [Prelude.fromLeBytes, List.length_cons]
    have hb := b.toNat_lt
    have : 2 ^ (8 * (l.length + 1)) = 2 ^ (8 * l.length) * 256 := by
      rw [show 8 * (l.length + 1) = 8 * l.length + 8 by omega, Nat.pow_add]
    omega

namespace Expr

theorem u8List_progress : ∀ {vs : List Value} {ts : List ValueType}, Value.HaveTypes .basic vs ts →
    (ts.all fun t => match t with | .base (.num .b8) => true | _ => false) = true →
    (∃ bs, u8List vs = some bs ∧ bs.length = ts.length) ∨ ∃ v ∈ vs, v.coerceMapped ≠ v
  | [], [], _, _ => .inl ⟨[], rfl, rfl⟩
  | [], _ :: _, h, _ => by simp only [Value.HaveTypes] at h
  | _ :: _, [], h, _ => by simp only [Value.HaveTypes] at h
  | v :: vs, t :: ts, h, ht => by
    simp only [Value.HaveTypes] at h
    simp only [List.all_cons, Bool.and_eq_true] at ht
    obtain ⟨ht, hts⟩ := ht
    split at ht
    · obtain ⟨n, hn⟩ := Value.canon h.1
      by_cases e : v.coerceMapped = v
      · rw [e] at hn
        rcases u8List_progress h.2 hts with ⟨bs, hb, hl⟩ | ⟨x, hx, hn'⟩
        · subst hn
          exact .inl ⟨UInt8.ofNat n.val :: bs, by simp only [u8List, hb, Option.map_some], by simp only [List.length_cons, hl]⟩
        · exact .inr ⟨x, List.mem_cons_of_mem _ hx, hn'⟩
      · exact .inr ⟨v, List.mem_cons_self, e⟩
    · simp only [Bool.false_eq_true] at ht

theorem u8List_wrapped : ∀ {vs : List Value} {v : Value}, v ∈ vs → v.coerceMapped ≠ v → u8List vs = none
  | [], v, h, _ => nomatch h
  | x :: vs, v, h, hv => by
    rcases List.mem_cons.mp h with rfl | h
    · unfold u8List
      split
      · rename_i e; cases e
      · rename_i e; cases e; exact (hv rfl).elim
      · rfl
    · have ih := u8List_wrapped h hv
      unfold u8List
      split
      · rename_i e; cases e
      · rename_i e; cases e; rw [ih]; rfl
      · rfl

end Expr

/-! ### Scopes -/

namespace Scope
variable {δ : Type}

theorem Covers.single {s : Scope δ} {Γ : TypeScope} (h : s.Covers Γ) (name : String) (v : Value)
    (k : ValueKind) : (Scope.single name v s).Covers ((name, k) :: Γ) := by
  intro n u hg
  unfold TypeScope.get at hg
  unfold getValue
  by_cases e : name = n
  · exact ⟨v, by rw [if_pos e]⟩
  · rw [if_neg e] at hg ⊢
    exact h n u hg

end Scope

theorem Pattern.matches_covers {δ : Type} {s : Scope δ} {p : Pattern} {v : Value} {t : ValueType}
    {Γ Γ' : TypeScope} {bs : List (String × Value)} (hb : p.buildScope Γ t = .ok Γ')
    (hm : v.matchesPat p = some bs) (hv : v.HasType .basic t) (hc : s.Covers Γ) :
    (s.withBindings bs).Covers Γ' := by
  refine Pattern.build_ext (σ := .basic) (P := fun bs Γ => (s.withBindings bs).Covers Γ) ?_ p v.coerceNominal
    t Γ Γ' [] bs hb hm hv.coerceNominal ?_
  · intro bs Γ name v t ha _ n u hg
    rw [Scope.getValue_withBindings_snoc]
    unfold TypeScope.get at hg
    by_cases e : name = n
    · exact ⟨v, by rw [if_pos e]⟩
    · rw [if_neg e] at hg ⊢
      exact ha n u hg
  · intro n u hg
    rw [Scope.getValue_withBindings_nil]
    exact hc n u hg

/-! ### Search -/

theorem searchLoop_ok {V : Type} {cmp : V → Panicky Ordering} {key : Nat → Panicky V} {len : Nat}
    (h : ∀ i, i < len → ∃ k o, key i = .ok k ∧ cmp k = .ok o)
    (h0 : ∀ k, key 0 = .ok k → cmp k = .ok .gt) :
    ∀ fuel lo hi, hi < len → lo ≤ hi + 1 → hi + 1 - lo < fuel →
      ∃ r, searchLoop cmp key fuel lo hi = .ok r ∧ ∀ i, r = some i → i < len
  | 0, lo, hi, _, _, hf => by omega
  | fuel + 1, lo, hi, hh, hl, hf => by
    unfold searchLoop
    by_cases c : lo ≤ hi
    · rw [if_pos c]
      obtain ⟨k, o, hk, ho⟩ := h ((lo + hi) / 2) (by omega)
      simp only [hk, ho]
      cases o with
      | lt =>
        have hne : (lo + hi) / 2 ≠ 0 := by
          intro e
          rw [e] at hk
          have := h0 k hk
          rw [ho] at this
          cases this
        simp only [if_neg hne]
        exact searchLoop_ok h h0 fuel lo ((lo + hi) / 2 - 1) (by omega) (by omega) (by omega)
      | eq => exact ⟨_, rfl, fun i e => by cases e; omega⟩
      | gt => exact searchLoop_ok h h0 fuel ((lo + hi) / 2 + 1) hi hh (by omega) (by omega)
    · rw [if_neg c]; exact ⟨none, rfl, fun i e => by cases e⟩

theorem findSorted_ok {V : Type} {cmp : V → Panicky Ordering} {key : Nat → Panicky V} {len : Nat}
    (h : ∀ i, i < len → ∃ k o, key i = .ok k ∧ cmp k = .ok o) :
    ∃ r, findIndexByKeySorted cmp key len = .ok r ∧ ∀ i, r = some i → i < len := by
  unfold findIndexByKeySorted
  by_cases c : len = 0
  · rw [if_pos c]; exact ⟨none, rfl, fun i e => by cases e⟩
  · rw [if_neg c]
    obtain ⟨k0, o0, hk0, ho0⟩ := h 0 (by omega)
    simp only [hk0, ho0]
    cases o0 with
    | lt => exact ⟨none, rfl, fun i e => by cases e⟩
    | eq => exact ⟨some 0, rfl, fun i e => by cases e; omega⟩
    | gt =>
      simp only []
      by_cases c1 : len ≤ 1
      · rw [if_pos c1]; exact ⟨none, rfl, fun i e => by cases e⟩
      · rw [if_neg c1]
        obtain ⟨kl, ol, hkl, hol⟩ := h (len - 1) (by omega)
        simp only [hkl, hol]
        cases ol with
        | gt => exact ⟨none, rfl, fun i e => by cases e⟩
        | eq => exact ⟨some (len - 1), rfl, fun i e => by cases e; omega⟩
        | lt =>
          simp only []
          by_cases c2 : len ≤ 2
          · rw [if_pos c2]; exact ⟨none, rfl, fun i e => by cases e⟩
          · rw [if_neg c2]
            refine searchLoop_ok h ?_ (len + 1) 0 (len - 1) (by omega) (by omega) (by omega)
            intro k hk
            rw [hk0] at hk; cases hk; exact ho0

theorem findUnsorted_ok {V V0 : Type} {eqKey : V → Panicky Bool} {f : V0 → Panicky V} :
    ∀ (vs : List V0) (ix : Nat), (∀ v ∈ vs, ∃ k b, f v = .ok k ∧ eqKey k = .ok b) →
      ∃ r, findIndexByKeyUnsorted eqKey f vs ix = .ok r ∧ ∀ i, r = some i → i < ix + vs.length
  | [], ix, h => ⟨none, rfl, fun i e => by cases e⟩
  | v :: vs, ix, h => by
    obtain ⟨k, b, hk, hb⟩ := h v List.mem_cons_self
    unfold findIndexByKeyUnsorted
    simp only [hk, hb]
    cases b with
    | true => exact ⟨some ix, rfl, fun i e => by cases e; simp⟩
    | false =>
      obtain ⟨r, hr, hi⟩ := findUnsorted_ok vs (ix + 1) (fun v hv => h v (List.mem_cons_of_mem _ hv))
      exact ⟨r, hr, fun i e => by have := hi i e; simp only [List.length_cons]; omega⟩

theorem SeqKind.index_ok {α : Type} {q : SeqKind α} {i : Nat} (h : i < q.iter.length) :
    ∃ v, q.index i = .ok v ∧ v ∈ q.iter := by
  cases q with
  | strict vs =>
    simp only [SeqKind.iter] at h ⊢
    exact ⟨vs[i], by simp only [SeqKind.index, SeqKind.get, List.getElem?_eq_getElem h, Panicky.unwrap],
      List.getElem_mem h⟩
  | dup n v =>
    simp only [SeqKind.iter, List.length_replicate] at h ⊢
    exact ⟨v, by simp only [SeqKind.index, SeqKind.get, if_pos h, Panicky.unwrap],
      List.mem_replicate.mpr ⟨by omega, rfl⟩⟩

theorem SeqKind.index_panic {α : Type} {q : SeqKind α} {i : Nat} (h : q.iter.length ≤ i) :
    q.index i = .panic := by
  cases q with
  | strict vs =>
    simp only [SeqKind.iter] at h
    simp only [SeqKind.index, SeqKind.get, List.getElem?_eq_none h, Panicky.unwrap]
  | dup n v =>
    simp only [SeqKind.iter, List.length_replicate] at h
    simp only [SeqKind.index, SeqKind.get, if_neg (Nat.not_lt.mpr h), Panicky.unwrap]

theorem SeqKind.subSeq_cases {α : Type} (q : SeqKind α) (a n : Nat) :
    (∃ r, q.subSeq a n = .ok r) ∨ (q.iter.length < a + n ∧ q.subSeq a n = .panic) := by
  cases q with
  | strict vs =>
    simp only [SeqKind.iter, SeqKind.subSeq, List.length_drop]
    by_cases h1 : a ≤ vs.length
    · rw [if_pos h1]
      by_cases h2 : n ≤ vs.length - a
      · rw [if_pos h2]; exact .inl ⟨_, rfl⟩
      · rw [if_neg h2]; exact .inr ⟨by omega, rfl⟩
    · rw [if_neg h1]; exact .inr ⟨by omega, rfl⟩
  | dup k v =>
    simp only [SeqKind.iter, SeqKind.subSeq, List.length_replicate]
    by_cases h1 : a + n ≤ k
    · rw [if_pos h1]; exact .inl ⟨_, rfl⟩
    · rw [if_neg h1]; exact .inr ⟨by omega, rfl⟩

theorem SeqKind.subSeq_panic {α : Type} {q : SeqKind α} {a n : Nat} (h : q.iter.length < a + n) :
    q.subSeq a n = .panic := by
  rcases q.subSeq_cases a n with ⟨r, hr⟩ | ⟨_, hp⟩
  · cases q with
    | strict vs =>
      simp only [SeqKind.iter] at h
      simp only [SeqKind.subSeq, List.length_drop] at hr
      split at hr
      · split at hr
        · omega
        · cases hr
      · cases hr
    | dup k v =>
      simp only [SeqKind.iter, List.length_replicate] at h
      simp only [SeqKind.subSeq] at hr
      split at hr
      · omega
      · cases hr
  · exact hp

/-- a back-reference into a non-empty suffix never runs out -/
theorem inflateSeqLoop_ok {α : Type} {q : SeqKind α} {a : Nat} (h : a < q.iter.length) :
    ∀ (n : Nat) (vs : List α) (i : Nat), vs.length = i → ∃ r, Prelude.inflateSeqLoop q a vs i n = .ok r
  | 0, vs, i, _ => ⟨vs, rfl⟩
  | n + 1, vs, i, hi => by
    unfold Prelude.inflateSeqLoop
    rw [SeqKind.iter_length] at h
    by_cases c : i + a < q.len
    · rw [if_pos c]
      obtain ⟨x, hx, _⟩ := SeqKind.index_ok (q := q) (i := i + a) (by rw [SeqKind.iter_length]; exact c)
      simp only [hx]
      exact inflateSeqLoop_ok (by rw [SeqKind.iter_length]; exact h) n _ _ (by simp [hi])
    · rw [if_neg c, List.getElem?_eq_getElem (by omega)]
      exact inflateSeqLoop_ok (by rw [SeqKind.iter_length]; exact h) n _ _ (by simp [hi])

namespace Expr

theorem findByKeyOf_progress {sorted : Bool} {f : Value → Panicky Value} {query : Value} {q : SeqKind Value}
    (h : ∀ v ∈ q.iter, ∀ k, f v = .ok k →
      (∃ o, query.compareAsKey k = .ok o) ∧ ∃ b, query.eqKey k = .ok b) :
    (∃ r, findByKeyOf sorted f query q = .ok r) ∨
      (findByKeyOf sorted f query q = .panic ∧ ∃ v ∈ q.iter, f v = .panic) := by
  by_cases hp : ∃ v ∈ q.iter, f v = .panic
  · rcases Panicky.cases (findByKeyOf sorted f query q) with h | h
    · exact .inl h
    · exact .inr ⟨h, hp⟩
  · left
    have hok : ∀ v ∈ q.iter, ∃ k, f v = .ok k := by
      intro v hv
      rcases Panicky.cases (f v) with h | h
      · exact h
      · exact (hp ⟨v, hv, h⟩).elim
    have last : ∀ r : Option Nat, (∀ i, r = some i → i < q.iter.length) →
        ∃ x, (match r with
          | some i => do
            let v ← q.index i
            .ok (.optSome v)
          | none => .ok .optNone : Panicky Value) = .ok x := by
      intro r hr
      cases r with
      | none => exact ⟨_, rfl⟩
      | some i =>
        obtain ⟨v, hv, _⟩ := SeqKind.index_ok (hr i rfl)
        exact ⟨.optSome v, by simp only [hv]; rfl⟩
    unfold findByKeyOf
    cases sorted with
    | true =>
      simp only [if_true]
      obtain ⟨r, hr, hi⟩ := findSorted_ok (cmp := fun k => query.compareAsKey k)
        (key := fun i => do let v ← q.index i; f v) (len := q.len) (by
          intro i hi
          rw [← SeqKind.iter_length] at hi
          obtain ⟨v, hv, hm⟩ := SeqKind.index_ok hi
          obtain ⟨k, hk⟩ := hok v hm
          obtain ⟨⟨o, ho⟩, _⟩ := h v hm k hk
          exact ⟨k, o, by simp only [hv, Panicky.ok_bind]; exact hk, ho⟩)
      rw [hr, Panicky.ok_bind]
      exact last r (by rw [SeqKind.iter_length]; exact hi)
    | false =>
      simp only [Bool.false_eq_true, if_false]
      obtain ⟨r, hr, hi⟩ := findUnsorted_ok (eqKey := fun k => query.eqKey k) (f := f) q.iter 0 (by
          intro v hm
          obtain ⟨k, hk⟩ := hok v hm
          obtain ⟨_, b, hb⟩ := h v hm k hk
          exact ⟨k, b, hk, hb⟩)
      rw [hr, Panicky.ok_bind]
      exact last r (by simpa using hi)

/-! ### Loops -/

theorem flatMapLoop_progress {f : Value → Panicky Value} : ∀ (l vs : List Value),
    (∀ v ∈ l, ∀ r, f v = .ok r → ∃ q, r.getSequence = some q) →
    (∃ out, flatMapLoop f vs l = .ok out) ∨ ∃ v ∈ l, f v = .panic
  | [], vs, _ => .inl ⟨vs, rfl⟩
  | v :: l, vs, h => by
    unfold flatMapLoop
    rcases Panicky.cases (f v) with ⟨r, hr⟩ | hp
    · obtain ⟨q, hq⟩ := h v List.mem_cons_self r hr
      rw [hr, Panicky.ok_bind]
      simp only [hq]
      rcases flatMapLoop_progress l (vs ++ q.items) (fun v hv => h v (List.mem_cons_of_mem _ hv))
        with h | ⟨v, hv, h⟩
      · exact .inl h
      · exact .inr ⟨v, List.mem_cons_of_mem _ hv, h⟩
    · exact .inr ⟨v, List.mem_cons_self, hp⟩

theorem flatMapLoop_panic {f : Value → Panicky Value} : ∀ {l : List Value} {v : Value} (vs : List Value),
    v ∈ l → f v = .panic → flatMapLoop f vs l = .panic
  | x :: l, v, vs, hm, hv => by
    unfold flatMapLoop
    rcases List.mem_cons.mp hm with rfl | hm
    · rw [hv]; rfl
    · refine Panicky.bind_panic fun r _ => ?_
      split
      · exact flatMapLoop_panic _ hm hv
      · rfl

theorem leftFoldLoop_progress {f : Value → Panicky Value} {P : Value → Prop} : ∀ (l : List Value) (a : Value),
    P a → (∀ a v r, P a → v ∈ l → f (.tuple [a, v]) = .ok r → P r) →
    (∃ out, leftFoldLoop f a l = .ok out) ∨ ∃ pre v post b, l = pre ++ v :: post ∧
      FoldChain (fun a v b => f (.tuple [a, v]) = .ok b) a pre b ∧ P b ∧ f (.tuple [b, v]) = .panic
  | [], a, _, _ => .inl ⟨a, rfl⟩
  | v :: l, a, ha, h => by
    unfold leftFoldLoop
    rcases Panicky.cases (f (.tuple [a, v])) with ⟨r, hr⟩ | hp
    · rw [hr, Panicky.ok_bind]
      rcases leftFoldLoop_progress l r (h a v r ha List.mem_cons_self hr)
        (fun a v r ha hv => h a v r ha (List.mem_cons_of_mem _ hv)) with h | ⟨pre, w, post, b, rfl, hc, hb, hp⟩
      · exact .inl h
      · exact .inr ⟨v :: pre, w, post, b, rfl, .cons hr hc, hb, hp⟩
    · exact .inr ⟨[], v, l, a, rfl, .nil, ha, hp⟩

theorem leftFoldLoop_panic {f : Value → Panicky Value} {pre : List Value} {v b : Value} {post : List Value}
    (hp : f (.tuple [b, v]) = .panic) : ∀ {a : Value},
    FoldChain (fun a v b => f (.tuple [a, v]) = .ok b) a pre b → leftFoldLoop f a (pre ++ v :: post) = .panic := by
  intro a hc
  induction hc with
  | nil => simp only [List.nil_append]; unfold leftFoldLoop; rw [hp]; rfl
  | cons h1 _ ih =>
    simp only [List.cons_append]
    unfold leftFoldLoop
    rw [h1, Panicky.ok_bind]
    exact ih hp

theorem accumLoop_progress {f : Value → Panicky Value} {P : Value → Prop} : ∀ (l : List Value) (a : Value)
    (vs : List Value), P a →
    (∀ a v r, P a → v ∈ l → f (.tuple [a, v]) = .ok r →
      ∃ b x, r = .tuple [b, x] ∧ P b ∧ ((∃ q, x = .seq q) ∨ x.coerceMapped ≠ x)) →
    (∃ out, flatMapAccumLoop f a vs l = .ok out) ∨ ∃ pre v post b, l = pre ++ v :: post ∧
      FoldChain (fun a v b => ∃ q, f (.tuple [a, v]) = .ok (.tuple [b, .seq q])) a pre b ∧ P b ∧ v ∈ l ∧
      (f (.tuple [b, v]) = .panic ∨ ∃ c x, f (.tuple [b, v]) = .ok (.tuple [c, x]) ∧ x.coerceMapped ≠ x)
  | [], a, vs, _, _ => .inl ⟨vs, rfl⟩
  | v :: l, a, vs, ha, h => by
    unfold flatMapAccumLoop
    rcases Panicky.cases (f (.tuple [a, v])) with ⟨r, hr⟩ | hp
    · obtain ⟨b, x, rfl, hb, hx⟩ := h a v r ha List.mem_cons_self hr
      rw [hr, Panicky.ok_bind]
      rcases hx with ⟨q, rfl⟩ | hx
      · rcases accumLoop_progress l b (vs ++ q.iter) hb
          (fun a v r ha hv => h a v r ha (List.mem_cons_of_mem _ hv)) with h | ⟨pre, w, post, b, e, hc, hb, hm, hp⟩
        · exact .inl h
        · exact .inr ⟨v :: pre, w, post, b, by rw [e]; rfl, .cons ⟨q, hr⟩ hc, hb, List.mem_cons_of_mem _ hm, hp⟩
      · exact .inr ⟨[], v, l, a, rfl, .nil, ha, List.mem_cons_self, .inr ⟨b, x, hr, hx⟩⟩
    · exact .inr ⟨[], v, l, a, rfl, .nil, ha, List.mem_cons_self, .inl hp⟩

theorem accumLoop_panic {f : Value → Panicky Value} {pre : List Value} {v b : Value} {post : List Value}
    (hp : f (.tuple [b, v]) = .panic ∨ ∃ c x, f (.tuple [b, v]) = .ok (.tuple [c, x]) ∧ x.coerceMapped ≠ x) :
    ∀ {a : Value} (vs : List Value),
    FoldChain (fun a v b => ∃ q, f (.tuple [a, v]) = .ok (.tuple [b, .seq q])) a pre b →
    flatMapAccumLoop f a vs (pre ++ v :: post) = .panic := by
  intro a vs hc
  induction hc generalizing vs with
  | nil =>
    simp only [List.nil_append]
    unfold flatMapAccumLoop
    rcases hp with hp | ⟨c, x, hp, hx⟩
    · rw [hp]; rfl
    · rw [hp, Panicky.ok_bind]
      split
      · rename_i e
        simp only [Value.tuple.injEq, List.cons.injEq, and_true] at e
        exact (hx (by rw [e.2]; rfl)).elim
      · rfl
  | cons h1 _ ih =>
    simp only [List.cons_append]
    unfold flatMapAccumLoop
    obtain ⟨q, h1⟩ := h1
    rw [h1, Panicky.ok_bind]
    exact ih hp _

theorem listLoop_progress {f : Value → Panicky Value} {P : List Value → Prop} : ∀ (l vs : List Value), P vs →
    (∀ vs v r, P vs → v ∈ l → f (.tuple [.seq (.strict vs), v]) = .ok r →
      ∃ q, r = .seq q ∧ P (vs ++ q.iter)) →
    (∃ out, flatMapListLoop f vs l = .ok out) ∨ ∃ pre v post vs', l = pre ++ v :: post ∧
      FoldChain (fun vs v vs' => ∃ q, f (.tuple [.seq (.strict vs), v]) = .ok (.seq q) ∧ vs' = vs ++ q.iter)
        vs pre vs' ∧ P vs' ∧ f (.tuple [.seq (.strict vs'), v]) = .panic
  | [], vs, _, _ => .inl ⟨vs, rfl⟩
  | v :: l, vs, ha, h => by
    unfold flatMapListLoop
    rcases Panicky.cases (f (.tuple [.seq (.strict vs), v])) with ⟨r, hr⟩ | hp
    · obtain ⟨q, rfl, hq⟩ := h vs v r ha List.mem_cons_self hr
      rw [hr, Panicky.ok_bind]
      rcases listLoop_progress l (vs ++ q.iter) hq
        (fun a v r ha hv => h a v r ha (List.mem_cons_of_mem _ hv)) with h | ⟨pre, w, post, b, rfl, hc, hb, hp⟩
      · exact .inl h
      · exact .inr ⟨v :: pre, w, post, b, rfl, .cons ⟨q, hr, rfl⟩ hc, hb, hp⟩
    · exact .inr ⟨[], v, l, vs, rfl, .nil, ha, hp⟩

theorem listLoop_panic {f : Value → Panicky Value} {pre : List Value} {v : Value} {vs' post : List Value}
    (hp : f (.tuple [.seq (.strict vs'), v]) = .panic) : ∀ {vs : List Value},
    FoldChain (fun vs v vs' => ∃ q, f (.tuple [.seq (.strict vs), v]) = .ok (.seq q) ∧ vs' = vs ++ q.iter)
      vs pre vs' → flatMapListLoop f vs (pre ++ v :: post) = .panic := by
  intro a hc
  induction hc with
  | nil => simp only [List.nil_append]; unfold flatMapListLoop; rw [hp]; rfl
  | cons h1 _ ih =>
    simp only [List.cons_append]
    unfold flatMapListLoop
    obtain ⟨q, h1, rfl⟩ := h1
    rw [h1, Panicky.ok_bind]
    exact ih hp

end Expr
end Doodle
