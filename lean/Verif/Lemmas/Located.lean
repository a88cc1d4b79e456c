import Verif.Spec.Located
import Verif.Lemmas.LocExpr

/-! Locations recorded by the expressions of location-tracking decoding. -/

namespace Doodle
namespace Loc

open ParsedValue (WithinAll WithinFields)

theorem loc_mono {lo hi lo' hi' : Nat} (h1 : lo' ≤ lo) (h2 : hi ≤ hi') {l : ParseLoc} (h : l.Within lo hi) :
    l.Within lo' hi' := by
  cases l with
  | synthesized => trivial
  | inBuffer o n => exact ⟨Nat.le_trans h1 h.1, Nat.le_trans h.2 h2⟩

section Values
variable {lo hi : Nat}

theorem withinAll_iff : ∀ {vs : List ParsedValue}, WithinAll lo hi vs ↔ ∀ v ∈ vs, v.Within lo hi
  | [] => by simp [WithinAll]
  | v :: vs => by simp [WithinAll, withinAll_iff]

theorem withinFields_iff : ∀ {fs : List (String × ParsedValue)}, WithinFields lo hi fs ↔ ∀ f ∈ fs, f.2.Within lo hi
  | [] => by simp [WithinFields]
  | (l, v) :: fs => by simp [WithinFields, withinFields_iff]

mutual
theorem within_mono {lo' hi' : Nat} (h1 : lo' ≤ lo) (h2 : hi ≤ hi') :
    ∀ {v : ParsedValue}, v.Within lo hi → v.Within lo' hi'
  | .flat _ _, h => loc_mono h1 h2 h
  | .tuple _ _, h => ⟨loc_mono h1 h2 h.1, withinAll_mono h1 h2 h.2⟩
  | .seq _ _, h => ⟨loc_mono h1 h2 h.1, withinAll_mono h1 h2 h.2⟩
  | .record _ _, h => ⟨loc_mono h1 h2 h.1, withinFields_mono h1 h2 h.2⟩
  | .variant _ v, h => within_mono (v := v) h1 h2 h
  | .mapped a b, h => ⟨within_mono (v := a) h1 h2 h.1, within_mono (v := b) h1 h2 h.2⟩
  | .branch _ v, h => within_mono (v := v) h1 h2 h
  | .permitOk v, h => within_mono (v := v) h1 h2 h
  | .permitErr v, h => within_mono (v := v) h1 h2 h
  | .permitErrNone, _ => trivial
  | .optNone, _ => trivial
  | .optSome v, h => within_mono (v := v) h1 h2 h

theorem withinAll_mono {lo' hi' : Nat} (h1 : lo' ≤ lo) (h2 : hi ≤ hi') :
    ∀ {vs : List ParsedValue}, WithinAll lo hi vs → WithinAll lo' hi' vs
  | [], _ => trivial
  | v :: _, h => ⟨within_mono (v := v) h1 h2 h.1, withinAll_mono h1 h2 h.2⟩

theorem withinFields_mono {lo' hi' : Nat} (h1 : lo' ≤ lo) (h2 : hi ≤ hi') :
    ∀ {vs : List (String × ParsedValue)}, WithinFields lo hi vs → WithinFields lo' hi' vs
  | [], _ => trivial
  | (_, v) :: _, h => ⟨within_mono (v := v) h1 h2 h.1, withinFields_mono h1 h2 h.2⟩
end

theorem getLoc_within : ∀ {v : ParsedValue}, v.Within lo hi → v.getLoc.Within lo hi
  | .flat _ _, h => h
  | .tuple _ _, h => h.1
  | .seq _ _, h => h.1
  | .record _ _, h => h.1
  | .variant _ v, h => getLoc_within (v := v) h
  | .mapped a _, h => getLoc_within (v := a) h.1
  | .branch _ v, h => getLoc_within (v := v) h
  | .permitOk v, h => getLoc_within (v := v) h
  | .permitErr v, h => getLoc_within (v := v) h
  | .permitErrNone, _ => trivial
  | .optNone, _ => trivial
  | .optSome v, h => getLoc_within (v := v) h

theorem translate_within {l : ParseLoc} (hl : l.Within lo hi) :
    ∀ {v : ParsedValue}, v.Within lo hi → (v.translate l).Within lo hi
  | .flat _ _, _ => hl
  | .tuple _ _, h => ⟨hl, h.2⟩
  | .seq _ _, h => ⟨hl, h.2⟩
  | .record _ _, h => ⟨hl, h.2⟩
  | .variant _ v, h => translate_within (v := v) hl h
  | .mapped _ b, h => ⟨h.1, translate_within (v := b) hl h.2⟩
  | .branch _ v, h => translate_within (v := v) hl h
  | .permitOk v, h => translate_within (v := v) hl h
  | .permitErr v, h => translate_within (v := v) hl h
  | .permitErrNone, _ => trivial
  | .optNone, _ => trivial
  | .optSome v, h => translate_within (v := v) hl h

mutual
theorem fromEvaluated_within : ∀ v : Value, (ParsedValue.fromEvaluated v).Within lo hi
  | .bool _ => trivial
  | .num _ _ => trivial
  | .char _ => trivial
  | .numeric _ => trivial
  | .view _ => trivial
  | .phantom => trivial
  | .enumFromTo _ _ => trivial
  | .tuple vs => ⟨trivial, fromEvaluatedList_within vs⟩
  | .record fs => ⟨trivial, fromEvaluatedFields_within fs⟩
  | .seq s => ⟨trivial, fromEvaluatedSeq_within s⟩
  | .variant _ v => fromEvaluated_within v
  | .mapped a b => ⟨fromEvaluated_within a, fromEvaluated_within b⟩
  | .branch _ v => fromEvaluated_within v
  | .optNone => trivial
  | .optSome v => fromEvaluated_within v
  | .permitOk v => fromEvaluated_within v
  | .permitErrNone => trivial
  | .permitErr v => fromEvaluated_within v

theorem fromEvaluatedList_within : ∀ vs : List Value, WithinAll lo hi (ParsedValue.fromEvaluatedList vs)
  | [] => trivial
  | v :: vs => ⟨fromEvaluated_within v, fromEvaluatedList_within vs⟩

theorem fromEvaluatedFields_within : ∀ vs : List (String × Value),
    WithinFields lo hi (ParsedValue.fromEvaluatedFields vs)
  | [] => trivial
  | (_, v) :: vs => ⟨fromEvaluated_within v, fromEvaluatedFields_within vs⟩

theorem fromEvaluatedSeq_within : ∀ s : SeqKind Value, WithinAll lo hi (ParsedValue.fromEvaluatedSeq s)
  | .strict vs => fromEvaluatedList_within vs
  | .dup n v => by
    rw [withinAll_iff]
    intro x hx
    rw [ParsedValue.fromEvaluatedSeq] at hx
    rw [(List.mem_replicate.1 hx).2]
    exact fromEvaluated_within v
end

theorem coerce_within : ∀ {v : ParsedValue}, v.Within lo hi → v.coerceMapped.Within lo hi
  | .flat _ _, h => h
  | .tuple _ _, h => h
  | .seq _ _, h => h
  | .record _ _, h => h
  | .variant _ _, h => h
  | .mapped _ b, h => coerce_within (v := b) h.2
  | .branch _ v, h => coerce_within (v := v) h
  | .permitOk v, h => coerce_within (v := v) h
  | .permitErr _, h => h
  | .permitErrNone, _ => trivial
  | .optNone, _ => trivial
  | .optSome _, h => h

theorem ofUsize_within (n : Nat) : (ParsedValue.ofUsize n).Within lo hi := trivial

theorem lift_within {x : Panicky Value} {v : ParsedValue} (h : LocExpr.lift x = .ok v) : v.Within lo hi := by
  obtain ⟨r, _, h⟩ := Panicky.bind_eq_ok.1 h
  cases h
  exact fromEvaluated_within r

theorem unwrap_eq_ok {α : Type} {x : Option α} {a : α} (h : Panicky.unwrap x = .ok a) : x = some a := by
  cases x with
  | none => cases h
  | some b => cases h; rfl

theorem tupleProj_within {p v : ParsedValue} {i : Nat} (hp : p.Within lo hi) (h : p.tupleProj i = .ok v) :
    v.Within lo hi := by
  unfold ParsedValue.tupleProj at h
  split at h
  · exact withinAll_iff.1 hp.2 _ (List.mem_of_getElem? (unwrap_eq_ok h))
  · cases h

theorem recordProj_within {p v : ParsedValue} {l : String} (hp : p.Within lo hi) (h : p.recordProj l = .ok v) :
    v.Within lo hi := by
  unfold ParsedValue.recordProj at h
  split at h
  · have := unwrap_eq_ok h
    obtain ⟨f, hf, rfl⟩ := Option.map_eq_some_iff.1 this
    exact withinFields_iff.1 hp.2 _ (List.mem_of_find?_eq_some hf)
  · cases h

theorem indexOf_within {p v : ParsedValue} {i : Nat} (hp : p.Within lo hi) (h : LocExpr.indexOf p i = .ok v) :
    v.Within lo hi := by
  unfold LocExpr.indexOf at h
  split at h
  · next vs hs =>
    unfold ParsedValue.getSequence at hs
    split at hs <;> cases hs
    exact withinAll_iff.1 hp.2 _ (List.mem_of_getElem? (unwrap_eq_ok h))
  · split at h
    · cases h; exact fromEvaluated_within _
    · cases h
  · cases h

theorem subSeqOf_within {p v : ParsedValue} {i j : Nat} (hp : p.Within lo hi) (h : LocExpr.subSeqOf p i j = .ok v) :
    v.Within lo hi := by
  unfold LocExpr.subSeqOf at h
  split at h
  · next vs hs =>
    unfold ParsedValue.getSequence at hs
    split at hs <;> cases hs
    split at h
    · simp only at h
      split at h
      · cases h
        exact ⟨trivial, withinAll_iff.2 fun x hx =>
          withinAll_iff.1 hp.2 _ (List.mem_of_mem_drop (List.mem_of_mem_take hx))⟩
      · cases h
    · cases h
  · obtain ⟨r, _, h⟩ := Panicky.bind_eq_ok.1 h
    obtain ⟨x, _, h⟩ := Panicky.bind_eq_ok.1 h
    obtain ⟨y, _, h⟩ := Panicky.bind_eq_ok.1 h
    cases h; exact fromEvaluated_within _
  · cases h

theorem inflateSeq_within {vs0 : List ParsedValue} (h0 : ∀ v ∈ vs0, v.Within lo hi) (a : Nat) :
    ∀ n i (vs r : List ParsedValue), (∀ v ∈ vs, v.Within lo hi) →
      Prelude.inflateSeqLoop (.strict vs0) a vs i n = .ok r → ∀ v ∈ r, v.Within lo hi := by
  intro n
  induction n with
  | zero => intro i vs r hv h; cases h; exact hv
  | succ n ih =>
    intro i vs r hv h
    unfold Prelude.inflateSeqLoop at h
    have snoc : ∀ x : ParsedValue, x.Within lo hi → ∀ v ∈ vs ++ [x], v.Within lo hi := by
      intro x hx v hm
      rcases List.mem_append.1 hm with hm | hm
      · exact hv v hm
      · rw [List.mem_singleton.1 hm]; exact hx
    split at h
    · split at h
      · next x hx =>
        refine ih _ _ _ (snoc x ?_) h
        have : vs0[i + a]? = some x := unwrap_eq_ok hx
        exact h0 _ (List.mem_of_getElem? this)
      · cases h
    · split at h
      · next x hx => exact ih _ _ _ (snoc x (hv _ (List.mem_of_getElem? hx))) h
      · cases h

theorem inflateRange_within (len a : Nat) :
    ∀ n it i (vs r : List ParsedValue), (∀ v ∈ vs, v.Within lo hi) →
      Prelude.inflateRangeLoop ParsedValue.ofUsize len a vs it i n = .ok r → ∀ v ∈ r, v.Within lo hi := by
  intro n
  induction n with
  | zero => intro it i vs r hv h; unfold Prelude.inflateRangeLoop at h; cases h; exact hv
  | succ n ih =>
    intro it i vs r hv h
    have snoc : ∀ x : ParsedValue, x.Within lo hi → ∀ v ∈ vs ++ [x], v.Within lo hi := by
      intro x hx v hm
      rcases List.mem_append.1 hm with hm | hm
      · exact hv v hm
      · rw [List.mem_singleton.1 hm]; exact hx
    cases it with
    | nil =>
      unfold Prelude.inflateRangeLoop at h
      split at h
      · cases h
      · split at h
        · next x hx => exact ih _ _ _ _ (snoc x (hv _ (List.mem_of_getElem? hx))) h
        · cases h
    | cons y it =>
      unfold Prelude.inflateRangeLoop at h
      exact ih _ _ _ _ (snoc _ (ofUsize_within _)) h

theorem inflateOf_within {p v : ParsedValue} {i j : Nat} (hp : p.Within lo hi)
    (h : LocExpr.inflateOf p i j = .ok v) : v.Within lo hi := by
  unfold LocExpr.inflateOf at h
  split at h
  · next vs hs =>
    unfold ParsedValue.getSequence at hs
    split at hs <;> cases hs
    obtain ⟨r, h1, h⟩ := Panicky.bind_eq_ok.1 h
    cases h
    exact ⟨trivial, withinAll_iff.2 (inflateSeq_within (withinAll_iff.1 hp.2) _ _ _ _ _ (by simp) h1)⟩
  · obtain ⟨r, h1, h⟩ := Panicky.bind_eq_ok.1 h
    cases h
    exact ⟨trivial, withinAll_iff.2 (inflateRange_within _ _ _ _ _ _ _ (by simp) h1)⟩
  · cases h

theorem appendOf_within {p q v : ParsedValue} (hp : p.Within lo hi) (hq : q.Within lo hi)
    (h : LocExpr.appendOf p q = .ok v) : v.Within lo hi := by
  unfold LocExpr.appendOf at h
  split at h
  · next s0 h0 =>
    split at h
    · next s1 h1 =>
      split at h
      · cases h; exact hq
      · split at h
        · cases h; exact hp
        · obtain ⟨r, h2, h⟩ := Panicky.bind_eq_ok.1 h
          cases h
          unfold ParsedValue.LocSeq.append at h2
          split at h2
          · cases h2
            unfold ParsedValue.getSequence at h0 h1
            split at h0 <;> cases h0
            split at h1 <;> cases h1
            refine ⟨trivial, withinAll_iff.2 fun x hx => ?_⟩
            rcases List.mem_append.1 hx with hx | hx
            · exact withinAll_iff.1 hp.2 _ hx
            · exact withinAll_iff.1 hq.2 _ hx
          · cases h2
    · cases h
  · cases h

theorem findByKeyOf_within {sorted : Bool} {f : ParsedValue → Panicky Value} {q : Value} {vs : List ParsedValue}
    {v : ParsedValue} (hv : ∀ v ∈ vs, v.Within lo hi) (h : LocExpr.findByKeyOf sorted f q vs = .ok v) :
    v.Within lo hi := by
  have key : ∀ (r : Option Nat), (match r with
      | some i => do
        let v ← Panicky.unwrap vs[i]?
        .ok (.optSome v)
      | none => .ok (.fromEvaluated .optNone) : Panicky ParsedValue) = .ok v → v.Within lo hi := by
    intro r h
    split at h
    · obtain ⟨x, h1, h⟩ := Panicky.bind_eq_ok.1 h
      cases h
      have := hv _ (List.mem_of_getElem? (unwrap_eq_ok h1))
      exact this
    · cases h; exact fromEvaluated_within _
  unfold LocExpr.findByKeyOf at h
  simp only at h
  split at h
  · obtain ⟨r, _, h⟩ := Panicky.bind_eq_ok.1 h
    exact key r h
  · obtain ⟨r, _, h⟩ := Panicky.bind_eq_ok.1 h
    exact key r h

end Values

/-! ### Patterns -/

section Patterns
variable {lo hi : Nat}

mutual
theorem matchesLoc_within : ∀ (p : Pattern) {v : ParsedValue} {acc bs : List (String × ParsedValue)},
    v.Within lo hi → p.matchesLoc v acc = some bs →
      ∃ new, bs = acc ++ new ∧ ∀ b ∈ new, b.1 ∈ p.binders ∧ b.2.Within lo hi
  | .binding n, v, acc, bs, hv, h => by
    simp only [Pattern.matchesLoc] at h; cases h
    exact ⟨[(n, v)], rfl, by simpa [Pattern.binders] using hv⟩
  | .wildcard, v, acc, bs, hv, h => by
    simp only [Pattern.matchesLoc] at h; cases h; exact ⟨[], by simp, by simp⟩
  | .tuple ps, v, acc, bs, hv, h => by
    cases v with
    | tuple vs loc =>
      simp only [Pattern.matchesLoc] at h
      split at h
      · rw [Pattern.binders]; exact matchesAllLoc_within ps (withinAll_iff.1 hv.2) h
      · cases h
    | flat g l => cases g <;> simp [Pattern.matchesLoc, ParsedValue.matchesFlat] at h
    | _ => simp [Pattern.matchesLoc, ParsedValue.matchesFlat] at h
  | .seq ps, v, acc, bs, hv, h => by
    cases v with
    | seq vs loc =>
      simp only [Pattern.matchesLoc] at h
      split at h
      · rw [Pattern.binders]; exact matchesAllLoc_within ps (withinAll_iff.1 hv.2) h
      · cases h
    | flat g l => cases g <;> simp [Pattern.matchesLoc, ParsedValue.matchesFlat] at h
    | _ => simp [Pattern.matchesLoc, ParsedValue.matchesFlat] at h
  | .variant l p, v, acc, bs, hv, h => by
    cases v with
    | variant l' v =>
      simp only [Pattern.matchesLoc] at h
      split at h
      · rw [Pattern.binders]; exact matchesLoc_within p (v := v) hv h
      · cases h
    | flat g l => cases g <;> simp [Pattern.matchesLoc, ParsedValue.matchesFlat] at h
    | _ => simp [Pattern.matchesLoc, ParsedValue.matchesFlat] at h
  | .optNone, v, acc, bs, hv, h => by
    have : bs = acc := by
      cases v with
      | flat g l => cases g <;> simp [Pattern.matchesLoc, ParsedValue.matchesFlat] at h
      | optNone => simp [Pattern.matchesLoc] at h; exact h.symm
      | _ => simp [Pattern.matchesLoc, ParsedValue.matchesFlat] at h
    exact ⟨[], by simp [this], by simp⟩
  | .optSome p, v, acc, bs, hv, h => by
    cases v with
    | optSome v =>
      simp only [Pattern.matchesLoc] at h
      rw [Pattern.binders]; exact matchesLoc_within p (v := v) hv h
    | flat g l => cases g <;> simp [Pattern.matchesLoc, ParsedValue.matchesFlat] at h
    | _ => simp [Pattern.matchesLoc, ParsedValue.matchesFlat] at h
  | .bool b, v, acc, bs, hv, h => by
    simp only [Pattern.matchesLoc] at h; split at h <;> cases h; exact ⟨[], by simp, by simp⟩
  | .lit w n, v, acc, bs, hv, h => by
    simp only [Pattern.matchesLoc] at h; split at h <;> cases h; exact ⟨[], by simp, by simp⟩
  | .int b, v, acc, bs, hv, h => by
    simp only [Pattern.matchesLoc] at h; split at h <;> cases h; exact ⟨[], by simp, by simp⟩
  | .zConst b, v, acc, bs, hv, h => by
    simp only [Pattern.matchesLoc] at h; split at h <;> cases h; exact ⟨[], by simp, by simp⟩
  | .zRange b, v, acc, bs, hv, h => by
    simp only [Pattern.matchesLoc] at h; split at h <;> cases h; exact ⟨[], by simp, by simp⟩
  | .char b, v, acc, bs, hv, h => by
    simp only [Pattern.matchesLoc] at h; split at h <;> cases h; exact ⟨[], by simp, by simp⟩

theorem matchesAllLoc_within : ∀ (ps : List Pattern) {vs : List ParsedValue} {acc bs : List (String × ParsedValue)},
    (∀ v ∈ vs, v.Within lo hi) → Pattern.matchesAllLoc ps vs acc = some bs →
      ∃ new, bs = acc ++ new ∧ ∀ b ∈ new, b.1 ∈ Pattern.bindersAll ps ∧ b.2.Within lo hi
  | [], vs, acc, bs, hv, h => by
    simp only [Pattern.matchesAllLoc] at h; cases h; exact ⟨[], by simp, by simp⟩
  | p :: ps, [], acc, bs, hv, h => by
    simp only [Pattern.matchesAllLoc] at h; cases h; exact ⟨[], by simp, by simp⟩
  | p :: ps, v :: vs, acc, bs, hv, h => by
    simp only [Pattern.matchesAllLoc] at h
    split at h
    · next acc' h1 =>
      obtain ⟨n1, rfl, e1⟩ := matchesLoc_within p (hv v (by simp)) h1
      obtain ⟨n2, rfl, e2⟩ := matchesAllLoc_within ps (fun v hm => hv v (by simp [hm])) h
      refine ⟨n1 ++ n2, by simp, fun b hb => ?_⟩
      rw [Pattern.bindersAll]
      rcases List.mem_append.1 hb with hb | hb
      · exact ⟨List.mem_append_left _ (e1 b hb).1, (e1 b hb).2⟩
      · exact ⟨List.mem_append_right _ (e2 b hb).1, (e2 b hb).2⟩
    · cases h
end

theorem matchesPat_within {p : Pattern} {v : ParsedValue} {bs : List (String × ParsedValue)}
    (hv : v.Within lo hi) (h : v.matchesPat p = some bs) : ∀ b ∈ bs, b.1 ∈ p.binders ∧ b.2.Within lo hi := by
  obtain ⟨new, h1, h2⟩ := matchesLoc_within p (coerce_within hv) h
  rw [List.nil_append] at h1
  exact h1 ▸ h2

end Patterns

/-! ### Locations of records -/

/-- the length of a location -/
def weight : ParseLoc → Nat
  | .synthesized => 0
  | .inBuffer _ n => n

/-- the location does not begin before `t` -/
def From (t : Nat) : ParseLoc → Prop
  | .synthesized => True
  | .inBuffer o _ => t ≤ o

theorem fold_join : ∀ (ls : List ParseLoc) (a : ParseLoc),
    (ls.foldl ParseLoc.join a = .synthesized ∧ a = .synthesized ∧ ∀ l ∈ ls, l = .synthesized) ∨
    ∃ o n, ls.foldl ParseLoc.join a = .inBuffer o n ∧ n = weight a + (ls.map weight).sum ∧
      From o a ∧ (∀ l ∈ ls, From o l) ∧ ∃ m, .inBuffer o m ∈ a :: ls
  | [], .synthesized => .inl ⟨rfl, rfl, by simp⟩
  | [], .inBuffer o n => .inr ⟨o, n, rfl, by simp [weight], Nat.le_refl _, by simp, n, by simp⟩
  | l :: ls, a => by
    rw [List.foldl_cons]
    rcases fold_join ls (a.join l) with ⟨h1, h2, h3⟩ | ⟨o, n, h1, h2, h3, h4, m, h5⟩
    · cases l with
      | synthesized =>
        refine .inl ⟨h1, h2, fun l hl => ?_⟩
        rcases List.mem_cons.1 hl with rfl | hl
        · rfl
        · exact h3 l hl
      | inBuffer o n => cases a <;> cases h2
    · refine .inr ⟨o, n, h1, ?_, ?_, ?_, ?_⟩
      · rw [h2, List.map_cons, List.sum_cons]
        cases l <;> cases a <;> simp [ParseLoc.join, weight] <;> omega
      · cases l <;> cases a <;> simp [ParseLoc.join, From] at h3 ⊢ <;> omega
      · intro x hx
        rcases List.mem_cons.1 hx with rfl | hx
        · cases x <;> cases a <;> simp [ParseLoc.join, From] at h3 ⊢ <;> omega
        · exact h4 x hx
      · rcases List.mem_cons.1 h5 with h5 | h5
        · cases l with
          | synthesized => exact ⟨m, by rw [h5]; simp [ParseLoc.join]⟩
          | inBuffer o2 n2 =>
            cases a with
            | synthesized => exact ⟨m, by rw [h5]; simp [ParseLoc.join]⟩
            | inBuffer o1 n1 =>
              simp only [ParseLoc.join, ParseLoc.inBuffer.injEq] at h5
              rcases Nat.le_total o1 o2 with h | h
              · exact ⟨n1, by rw [h5.1, Nat.min_eq_left h]; simp⟩
              · exact ⟨n2, by rw [h5.1, Nat.min_eq_right h]; simp⟩
        · exact ⟨m, List.mem_cons_of_mem _ (List.mem_cons_of_mem _ h5)⟩

/-- The joined location lies in the window if the locations do and together are no longer than what is left
of it after the first of them. -/
theorem accum_within {ls : List ParseLoc} {lo hi : Nat} (h1 : ∀ l ∈ ls, l.Within lo hi)
    (h2 : ∀ t, (∀ l ∈ ls, From t l) → (ls.map weight).sum ≤ hi - t) : (ParseLoc.accum ls).Within lo hi := by
  unfold ParseLoc.accum
  rcases fold_join ls .synthesized with ⟨h, _⟩ | ⟨o, n, h, hn, _, h4, m, h5⟩
  · rw [h]; trivial
  · rw [h]
    rcases List.mem_cons.1 h5 with h5 | h5
    · cases h5
    · have := h1 _ h5
      have h6 := h2 o h4
      simp only [weight, Nat.zero_add] at hn
      exact ⟨this.1, by have := this.2; omega⟩

/-- The named values lie one after the other in the window. -/
def Chain (s : LocScope Decoder) : List String → Nat → Nat → Prop
  | [], lo, hi => lo ≤ hi
  | x :: own, lo, hi =>
    ∃ m, Chain s own lo m ∧ m ≤ hi ∧ ∃ v, s.getValue x = some v ∧ v.getLoc.Within m hi

theorem Chain.le {s : LocScope Decoder} : ∀ {own : List String} {lo hi : Nat}, Chain s own lo hi → lo ≤ hi
  | [], _, _, h => h
  | _ :: own, _, _, ⟨_, h, h2, _⟩ => Nat.le_trans (Chain.le (own := own) h) h2

theorem Chain.mono {s : LocScope Decoder} : ∀ {own : List String} {lo hi hi' : Nat}, Chain s own lo hi → hi ≤ hi' →
    Chain s own lo hi'
  | [], _, _, _, h, h' => Nat.le_trans h h'
  | _ :: _, _, _, _, ⟨m, h, h2, v, h3, h4⟩, h' =>
    ⟨m, h, Nat.le_trans h2 h', v, h3, loc_mono (Nat.le_refl _) h' h4⟩

theorem Chain.congr {s s' : LocScope Decoder} : ∀ {own : List String} {lo hi : Nat}, Chain s own lo hi →
    (∀ x ∈ own, s'.getValue x = s.getValue x) → Chain s' own lo hi
  | [], _, _, h, _ => h
  | x :: own, _, _, ⟨m, h, h2, v, h3, h4⟩, hx =>
    ⟨m, Chain.congr (own := own) h fun y hy => hx y (List.mem_cons_of_mem _ hy), h2, v,
      (hx x (by simp)).trans h3, h4⟩

theorem Chain.filter {s : LocScope Decoder} {p : String → Bool} : ∀ {own : List String} {lo hi : Nat},
    Chain s own lo hi → Chain s (own.filter p) lo hi
  | [], _, _, h => h
  | x :: own, _, _, ⟨m, h, h2, v, h3, h4⟩ => by
    rw [List.filter_cons]
    split
    · exact ⟨m, Chain.filter h, h2, v, h3, h4⟩
    · exact (Chain.filter h).mono h2

theorem Chain.mem {s : LocScope Decoder} : ∀ {own : List String} {lo hi : Nat}, Chain s own lo hi → ∀ x ∈ own,
    ∃ v, s.getValue x = some v ∧ v.getLoc.Within lo hi
  | x :: own, _, _, ⟨m, h, h2, v, h3, h4⟩, y, hy => by
    rcases List.mem_cons.1 hy with rfl | hy
    · exact ⟨v, h3, loc_mono h.le (Nat.le_refl _) h4⟩
    · obtain ⟨v', h5, h6⟩ := Chain.mem h y hy
      exact ⟨v', h5, loc_mono (Nat.le_refl _) h2 h6⟩

/-- the location of a variable -/
def locOf (s : LocScope Decoder) (x : String) : ParseLoc :=
  match s.getValue x with
  | some v => v.getLoc
  | none => .synthesized

theorem weight_le {l : ParseLoc} {m hi t : Nat} (h : l.Within m hi) (ht : From t l) (hm : m ≤ hi) :
    weight l ≤ hi - t ∧ weight l ≤ hi - m := by
  cases l with
  | synthesized => simp [weight]
  | inBuffer o n =>
    simp only [weight]
    simp only [From] at ht
    have h1 := h.1
    have h2 := h.2
    omega

theorem Chain.sum {s : LocScope Decoder} : ∀ {own : List String} {lo hi : Nat}, Chain s own lo hi →
    ∀ (xs : List String), xs.Nodup → (∀ x ∈ xs, x ∈ own) → ∀ t, (∀ x ∈ xs, From t (locOf s x)) →
      (xs.map fun x => weight (locOf s x)).sum ≤ hi - t
  | [], _, _, _, xs, _, h2, t, _ => by
    cases xs with
    | nil => simp
    | cons x xs => exact absurd (h2 x (by simp)) (by simp)
  | x :: own, lo, hi, ⟨m, h, hm, v, h3, h4⟩, xs, h1, h2, t, ht => by
    by_cases hx : x ∈ xs
    · have ih := Chain.sum h (xs.erase x) (h1.erase x)
        (fun y hy => by
          have := (h1.mem_erase_iff).1 hy
          rcases List.mem_cons.1 (h2 y this.2) with rfl | h
          · exact absurd rfl this.1
          · exact h) t (fun y hy => ht y (List.mem_of_mem_erase hy))
      have hp := ((List.perm_cons_erase hx).map fun x => weight (locOf s x)).sum_nat
      rw [List.map_cons, List.sum_cons] at hp
      have hl : locOf s x = v.getLoc := by unfold locOf; rw [h3]
      have hw := weight_le h4 (hl ▸ ht x hx) hm
      rw [hp, hl]
      omega
    · have := Chain.sum h xs h1 (fun y hy => by
          rcases List.mem_cons.1 (h2 y hy) with rfl | h
          · exact absurd hy hx
          · exact h) t ht
      omega

/-- The result is a computed value. -/
def Evald (v : ParsedValue) : Prop := ∃ x, v = .fromEvaluated x

theorem Evald.within {v : ParsedValue} (h : Evald v) {lo hi : Nat} : v.Within lo hi := by
  obtain ⟨x, rfl⟩ := h; exact fromEvaluated_within x

theorem Evald.getLoc {v : ParsedValue} (h : Evald v) : v.getLoc = .synthesized := by
  have h1 := getLoc_within (h.within (lo := 1) (hi := 0))
  cases h2 : v.getLoc with
  | synthesized => rfl
  | inBuffer o n => rw [h2] at h1; have := h1.1; have := h1.2; omega

theorem Evald.lift {x : Panicky Value} {v : ParsedValue} (h : LocExpr.lift x = .ok v) : Evald v := by
  obtain ⟨r, _, h⟩ := Panicky.bind_eq_ok.1 h
  cases h; exact ⟨r, rfl⟩

theorem evalBranches_evald {s : LocScope Decoder} {r v : ParsedValue} : ∀ {bs : List (Pattern × Expr)},
    Expr.evalBranchesLoc bs s r = .ok v → Evald v
  | [], h => by rw [Expr.evalBranchesLoc] at h; cases h
  | (p, e) :: bs, h => by
    rw [Expr.evalBranchesLoc] at h
    split at h
    · obtain ⟨r, _, h⟩ := Panicky.bind_eq_ok.1 h; cases h; exact ⟨_, rfl⟩
    · exact evalBranches_evald h

/-- a part of a sequence -/
def isSub : Expr → Bool
  | .subSeq _ _ _ => true
  | .subSeqInflate _ _ _ => true
  | _ => false

theorem synth_evald {e : Expr} (he : Synth e = true) (hb : isSub e = false) {s : LocScope Decoder} {v : ParsedValue}
    (h : e.evalLoc s = .ok v) : Evald v := by
  cases e with
  | var x => cases he
  | tupleProj x n => cases he
  | recordProj x n => cases he
  | record fs => cases he
  | seqIx x y => cases he
  | append x y => cases he
  | findByKey b x y z => cases he
  | lambda x y => cases he
  | bool b => rw [Expr.evalLoc] at h; cases h; exact ⟨_, rfl⟩
  | lit w n => rw [Expr.evalLoc] at h; cases h; exact ⟨_, rfl⟩
  | liftNone => rw [Expr.evalLoc] at h; cases h; exact ⟨_, rfl⟩
  | numeric n => rw [Expr.evalLoc] at h; exact Evald.lift h
  | tuple es =>
    rw [Expr.evalLoc] at h; obtain ⟨r, _, h⟩ := Panicky.bind_eq_ok.1 h; cases h; exact ⟨_, rfl⟩
  | variant l e =>
    rw [Expr.evalLoc] at h; obtain ⟨r, _, h⟩ := Panicky.bind_eq_ok.1 h; cases h; exact ⟨_, rfl⟩
  | seq es =>
    rw [Expr.evalLoc] at h; obtain ⟨r, _, h⟩ := Panicky.bind_eq_ok.1 h; cases h; exact ⟨_, rfl⟩
  | liftSome e =>
    rw [Expr.evalLoc] at h; obtain ⟨r, _, h⟩ := Panicky.bind_eq_ok.1 h; cases h; exact ⟨_, rfl⟩
  | match_ e bs =>
    rw [Expr.evalLoc] at h; obtain ⟨r, _, h⟩ := Panicky.bind_eq_ok.1 h
    exact evalBranches_evald h
  | destructure e p b =>
    rw [Expr.evalLoc] at h; obtain ⟨r, _, h⟩ := Panicky.bind_eq_ok.1 h
    split at h
    · obtain ⟨r, _, h⟩ := Panicky.bind_eq_ok.1 h; cases h; exact ⟨_, rfl⟩
    · cases h
  | intRel r x y =>
    rw [Expr.evalLoc] at h
    obtain ⟨r, _, h⟩ := Panicky.bind_eq_ok.1 h
    obtain ⟨r, _, h⟩ := Panicky.bind_eq_ok.1 h; exact Evald.lift h
  | arith r x y =>
    rw [Expr.evalLoc] at h
    obtain ⟨r, _, h⟩ := Panicky.bind_eq_ok.1 h
    obtain ⟨r, _, h⟩ := Panicky.bind_eq_ok.1 h; exact Evald.lift h
  | unary r x => rw [Expr.evalLoc] at h; obtain ⟨r, _, h⟩ := Panicky.bind_eq_ok.1 h; exact Evald.lift h
  | asNum r x => rw [Expr.evalLoc] at h; obtain ⟨r, _, h⟩ := Panicky.bind_eq_ok.1 h; exact Evald.lift h
  | asChar x => rw [Expr.evalLoc] at h; obtain ⟨r, _, h⟩ := Panicky.bind_eq_ok.1 h; exact Evald.lift h
  | fromBytes r b x => rw [Expr.evalLoc] at h; obtain ⟨r, _, h⟩ := Panicky.bind_eq_ok.1 h; exact Evald.lift h
  | seqLength x =>
    rw [Expr.evalLoc] at h; obtain ⟨r, _, h⟩ := Panicky.bind_eq_ok.1 h
    unfold LocExpr.lengthOf at h
    split at h
    · exact Evald.lift h
    · cases h
  | subSeq x y z => cases hb
  | subSeqInflate x y z => cases hb
  | flatMap x y =>
    rw [Expr.evalLoc] at h
    obtain ⟨_, _, h⟩ := Panicky.bind_eq_ok.1 h
    obtain ⟨_, _, h⟩ := Panicky.bind_eq_ok.1 h
    obtain ⟨_, _, h⟩ := Panicky.bind_eq_ok.1 h
    cases h; exact ⟨_, rfl⟩
  | flatMapAccum x y t z =>
    rw [Expr.evalLoc] at h
    obtain ⟨_, _, h⟩ := Panicky.bind_eq_ok.1 h
    obtain ⟨_, _, h⟩ := Panicky.bind_eq_ok.1 h
    obtain ⟨_, _, h⟩ := Panicky.bind_eq_ok.1 h
    obtain ⟨_, _, h⟩ := Panicky.bind_eq_ok.1 h
    cases h; exact ⟨_, rfl⟩
  | flatMapList x t y =>
    rw [Expr.evalLoc] at h
    obtain ⟨_, _, h⟩ := Panicky.bind_eq_ok.1 h
    obtain ⟨_, _, h⟩ := Panicky.bind_eq_ok.1 h
    obtain ⟨_, _, h⟩ := Panicky.bind_eq_ok.1 h
    cases h; exact ⟨_, rfl⟩
  | leftFold x y t z =>
    rw [Expr.evalLoc] at h
    obtain ⟨_, _, h⟩ := Panicky.bind_eq_ok.1 h
    obtain ⟨_, _, h⟩ := Panicky.bind_eq_ok.1 h
    obtain ⟨_, _, h⟩ := Panicky.bind_eq_ok.1 h
    exact Evald.lift h
  | dup x y =>
    rw [Expr.evalLoc] at h
    obtain ⟨_, _, h⟩ := Panicky.bind_eq_ok.1 h
    obtain ⟨_, _, h⟩ := Panicky.bind_eq_ok.1 h
    obtain ⟨_, _, h⟩ := Panicky.bind_eq_ok.1 h
    cases h; exact ⟨_, rfl⟩
  | enumFromTo x y =>
    rw [Expr.evalLoc] at h
    obtain ⟨_, _, h⟩ := Panicky.bind_eq_ok.1 h
    obtain ⟨_, _, h⟩ := Panicky.bind_eq_ok.1 h
    obtain ⟨_, _, h⟩ := Panicky.bind_eq_ok.1 h
    obtain ⟨_, _, h⟩ := Panicky.bind_eq_ok.1 h
    obtain ⟨_, _, h⟩ := Panicky.bind_eq_ok.1 h
    obtain ⟨_, _, h⟩ := Panicky.bind_eq_ok.1 h
    cases h; exact ⟨_, rfl⟩

theorem synth_getLoc {e : Expr} (he : Synth e = true) {s : LocScope Decoder} {v : ParsedValue}
    (h : e.evalLoc s = .ok v) : v.getLoc = .synthesized := by
  by_cases hb : isSub e = false
  · exact (synth_evald he hb h).getLoc
  cases e with
  | subSeq x y z =>
    rw [Expr.evalLoc] at h
    obtain ⟨_, _, h⟩ := Panicky.bind_eq_ok.1 h
    obtain ⟨_, _, h⟩ := Panicky.bind_eq_ok.1 h
    obtain ⟨_, _, h⟩ := Panicky.bind_eq_ok.1 h
    obtain ⟨_, _, h⟩ := Panicky.bind_eq_ok.1 h
    obtain ⟨_, _, h⟩ := Panicky.bind_eq_ok.1 h
    unfold LocExpr.subSeqOf at h
    split at h
    · split at h
      · simp only at h
        split at h
        · cases h; rfl
        · cases h
      · cases h
    · obtain ⟨_, _, h⟩ := Panicky.bind_eq_ok.1 h
      obtain ⟨_, _, h⟩ := Panicky.bind_eq_ok.1 h
      obtain ⟨_, _, h⟩ := Panicky.bind_eq_ok.1 h
      cases h; exact Evald.getLoc ⟨_, rfl⟩
    · cases h
  | subSeqInflate x y z =>
    rw [Expr.evalLoc] at h
    obtain ⟨_, _, h⟩ := Panicky.bind_eq_ok.1 h
    obtain ⟨_, _, h⟩ := Panicky.bind_eq_ok.1 h
    obtain ⟨_, _, h⟩ := Panicky.bind_eq_ok.1 h
    obtain ⟨_, _, h⟩ := Panicky.bind_eq_ok.1 h
    obtain ⟨_, _, h⟩ := Panicky.bind_eq_ok.1 h
    unfold LocExpr.inflateOf at h
    split at h
    · obtain ⟨_, _, h⟩ := Panicky.bind_eq_ok.1 h; cases h; rfl
    · obtain ⟨_, _, h⟩ := Panicky.bind_eq_ok.1 h; cases h; rfl
    · cases h
  | _ => exact absurd rfl hb

/-! ### Expressions -/

theorem fields_locs {s : LocScope Decoder} : ∀ {fs : List (String × Expr)} {vs : List (String × ParsedValue)}
    {xs : List String}, Expr.evalFieldsLoc fs s = .ok vs → fieldVars fs = some xs →
      (∀ l ∈ vs.map (fun f => f.2.getLoc), l = .synthesized ∨ ∃ x ∈ xs, l = locOf s x) ∧
      (∀ x ∈ xs, locOf s x ∈ vs.map (fun f => f.2.getLoc)) ∧
      ((vs.map (fun f => f.2.getLoc)).map weight).sum = (xs.map fun x => weight (locOf s x)).sum
  | [], vs, xs, h, hx => by
    rw [Expr.evalFieldsLoc] at h; cases h
    cases hx
    simp
  | (l, e) :: fs, vs, xs, h, hx => by
    rw [Expr.evalFieldsLoc] at h
    obtain ⟨v, h1, h⟩ := Panicky.bind_eq_ok.1 h
    obtain ⟨ws, h2, h⟩ := Panicky.bind_eq_ok.1 h
    cases h
    by_cases hv : ∃ x, e = .var x
    · obtain ⟨x, rfl⟩ := hv
      simp only [fieldVars] at hx
      obtain ⟨ys, hy, rfl⟩ := Option.map_eq_some_iff.1 hx
      obtain ⟨i1, i2, i3⟩ := fields_locs h2 hy
      rw [Expr.evalLoc] at h1
      have hl : locOf s x = v.getLoc := by unfold locOf; rw [unwrap_eq_ok h1]
      refine ⟨fun l hl' => ?_, fun y hy => ?_, ?_⟩
      · rcases List.mem_cons.1 hl' with rfl | hl'
        · exact .inr ⟨x, by simp, hl.symm⟩
        · rcases i1 l hl' with h | ⟨y, hy, h⟩
          · exact .inl h
          · exact .inr ⟨y, by simp [hy], h⟩
      · rcases List.mem_cons.1 hy with rfl | hy
        · rw [hl]; simp
        · exact List.mem_cons_of_mem _ (i2 y hy)
      · simp only [List.map_cons, List.sum_cons, i3, hl]
    · have hx' : Synth e = true ∧ fieldVars fs = some xs := by
        cases e <;> first
          | exact absurd ⟨_, rfl⟩ hv
          | (simp only [fieldVars] at hx; split at hx
             · exact ⟨by assumption, hx⟩
             · cases hx)
      obtain ⟨i1, i2, i3⟩ := fields_locs h2 hx'.2
      have hl := synth_getLoc hx'.1 h1
      refine ⟨fun l hl' => ?_, fun y hy => List.mem_cons_of_mem _ (i2 y hy), ?_⟩
      · rcases List.mem_cons.1 hl' with rfl | hl'
        · exact .inl hl
        · exact i1 l hl'
      · simp only [List.map_cons, List.sum_cons, i3, hl, weight, Nat.zero_add]

theorem record_loc {s : LocScope Decoder} {own : List String} {lo hi : Nat} (hc : Chain s own lo hi)
    {fs : List (String × Expr)} (hf : fieldsOk own fs = true) {vs : List (String × ParsedValue)}
    (h : Expr.evalFieldsLoc fs s = .ok vs) : (ParseLoc.accum (vs.map fun f => f.2.getLoc)).Within lo hi := by
  unfold fieldsOk at hf
  split at hf
  · next xs hx =>
    simp only [Bool.and_eq_true, decide_eq_true_eq, List.all_eq_true, List.contains_eq_mem] at hf
    obtain ⟨i1, i2, i3⟩ := fields_locs h hx
    refine accum_within (fun l hl => ?_) (fun t ht => ?_)
    · rcases i1 l hl with rfl | ⟨x, hx, rfl⟩
      · trivial
      · obtain ⟨v, h1, h2⟩ := hc.mem x (hf.2 x hx)
        unfold locOf; rw [h1]; exact h2
    · rw [i3]
      exact hc.sum xs hf.1 hf.2 t fun x hx => ht _ (i2 x hx)
  · cases hf

theorem localExpr_loc {s : LocScope Decoder} {own : List String} {lo hi : Nat} (hc : Chain s own lo hi)
    {e : Expr} (he : LocalExpr own e = true) {v : ParsedValue} (h : e.evalLoc s = .ok v) :
    v.getLoc.Within lo hi := by
  by_cases h1 : Synth e = true
  · rw [synth_getLoc h1 h]; trivial
  · cases e with
    | var x =>
      rw [Expr.evalLoc] at h
      simp only [LocalExpr, List.contains_eq_mem, decide_eq_true_eq] at he
      obtain ⟨w, h2, h3⟩ := hc.mem x he
      rw [unwrap_eq_ok h] at h2
      cases h2
      exact h3
    | record fs =>
      rw [Expr.evalLoc] at h
      obtain ⟨vs, h2, h⟩ := Panicky.bind_eq_ok.1 h
      unfold ParsedValue.collectFields at h
      split at h
      · cases h
      · cases h
        exact record_loc hc he h2
    | _ => exact absurd he h1

mutual
/-- Evaluation only passes on locations of values in scope and locations of tidy records. -/
theorem eval_within {s : LocScope Decoder} {own : List String} {lo hi S h : Nat}
    (hs : ∀ x v, s.getValue x = some v → v.Within lo hi) (hc : Chain s own S h) (hS : lo ≤ S) (hh : h ≤ hi) :
    ∀ (e : Expr) {v : ParsedValue}, TidyExpr own e = true → e.evalLoc s = .ok v → v.Within lo hi
  | .var x, v, _, h => by rw [Expr.evalLoc] at h; exact hs x v (unwrap_eq_ok h)
  | .tupleProj e i, v, he, h => by
    rw [Expr.evalLoc] at h
    obtain ⟨w, h1, h⟩ := Panicky.bind_eq_ok.1 h
    exact tupleProj_within (coerce_within (eval_within hs hc hS hh e he h1)) h
  | .recordProj e i, v, he, h => by
    rw [Expr.evalLoc] at h
    obtain ⟨w, h1, h⟩ := Panicky.bind_eq_ok.1 h
    exact recordProj_within (coerce_within (eval_within hs hc hS hh e he h1)) h
  | .seqIx e i, v, he, h => by
    rw [Expr.evalLoc] at h
    obtain ⟨w, h1, h⟩ := Panicky.bind_eq_ok.1 h
    obtain ⟨_, _, h⟩ := Panicky.bind_eq_ok.1 h
    obtain ⟨_, _, h⟩ := Panicky.bind_eq_ok.1 h
    exact indexOf_within (coerce_within (eval_within hs hc hS hh e he h1)) h
  | .subSeq e i j, v, he, h => by
    rw [Expr.evalLoc] at h
    obtain ⟨w, h1, h⟩ := Panicky.bind_eq_ok.1 h
    obtain ⟨_, _, h⟩ := Panicky.bind_eq_ok.1 h
    obtain ⟨_, _, h⟩ := Panicky.bind_eq_ok.1 h
    obtain ⟨_, _, h⟩ := Panicky.bind_eq_ok.1 h
    obtain ⟨_, _, h⟩ := Panicky.bind_eq_ok.1 h
    exact subSeqOf_within (coerce_within (eval_within hs hc hS hh e he h1)) h
  | .subSeqInflate e i j, v, he, h => by
    rw [Expr.evalLoc] at h
    obtain ⟨w, h1, h⟩ := Panicky.bind_eq_ok.1 h
    obtain ⟨_, _, h⟩ := Panicky.bind_eq_ok.1 h
    obtain ⟨_, _, h⟩ := Panicky.bind_eq_ok.1 h
    obtain ⟨_, _, h⟩ := Panicky.bind_eq_ok.1 h
    obtain ⟨_, _, h⟩ := Panicky.bind_eq_ok.1 h
    exact inflateOf_within (coerce_within (eval_within hs hc hS hh e he h1)) h
  | .append x y, v, he, h => by
    rw [Expr.evalLoc] at h
    simp only [TidyExpr, Bool.and_eq_true] at he
    obtain ⟨w, h1, h⟩ := Panicky.bind_eq_ok.1 h
    obtain ⟨w', h2, h⟩ := Panicky.bind_eq_ok.1 h
    exact appendOf_within (coerce_within (eval_within hs hc hS hh x he.1 h1))
      (coerce_within (eval_within hs hc hS hh y he.2 h2)) h
  | .findByKey b f q e, v, he, h => by
    rw [Expr.evalLoc] at h
    obtain ⟨w, h1, h⟩ := Panicky.bind_eq_ok.1 h
    obtain ⟨vs, h2, h⟩ := Panicky.bind_eq_ok.1 h
    obtain ⟨_, _, h⟩ := Panicky.bind_eq_ok.1 h
    have hw := coerce_within (eval_within hs hc hS hh e he h1)
    refine findByKeyOf_within ?_ h
    unfold LocExpr.needVals at h2
    split at h2
    · next ws hg =>
      cases h2
      unfold ParsedValue.getSequence at hg
      split at hg <;> cases hg
      next hg' => rw [hg'] at hw; exact withinAll_iff.1 hw.2
    · cases h2
  | .record fs, v, he, h => by
    rw [Expr.evalLoc] at h
    simp only [TidyExpr, Bool.and_eq_true] at he
    obtain ⟨vs, h2, h⟩ := Panicky.bind_eq_ok.1 h
    have hl := record_loc hc he.1 h2
    have hf := evalFields_within hs hc hS hh fs he.2 h2
    unfold ParsedValue.collectFields at h
    split at h
    · cases h
    · cases h
      exact ⟨loc_mono hS hh hl, withinFields_iff.2 hf⟩
  | .lambda x b, v, _, h => by rw [Expr.evalLoc] at h; cases h
  | .bool b, v, _, h => (synth_evald rfl rfl h).within
  | .lit w n, v, _, h => (synth_evald rfl rfl h).within
  | .liftNone, v, _, h => (synth_evald rfl rfl h).within
  | .numeric n, v, _, h => (synth_evald rfl rfl h).within
  | .tuple es, v, _, h => (synth_evald rfl rfl h).within
  | .variant l e, v, _, h => (synth_evald rfl rfl h).within
  | .seq es, v, _, h => (synth_evald rfl rfl h).within
  | .liftSome e, v, _, h => (synth_evald rfl rfl h).within
  | .match_ e bs, v, _, h => (synth_evald rfl rfl h).within
  | .destructure e p b, v, _, h => (synth_evald rfl rfl h).within
  | .intRel r x y, v, _, h => (synth_evald rfl rfl h).within
  | .arith r x y, v, _, h => (synth_evald rfl rfl h).within
  | .unary r x, v, _, h => (synth_evald rfl rfl h).within
  | .asNum r x, v, _, h => (synth_evald rfl rfl h).within
  | .asChar x, v, _, h => (synth_evald rfl rfl h).within
  | .fromBytes r b x, v, _, h => (synth_evald rfl rfl h).within
  | .seqLength x, v, _, h => (synth_evald rfl rfl h).within
  | .flatMap x y, v, _, h => (synth_evald rfl rfl h).within
  | .flatMapAccum x y t z, v, _, h => (synth_evald rfl rfl h).within
  | .flatMapList x t y, v, _, h => (synth_evald rfl rfl h).within
  | .leftFold x y t z, v, _, h => (synth_evald rfl rfl h).within
  | .dup x y, v, _, h => (synth_evald rfl rfl h).within
  | .enumFromTo x y, v, _, h => (synth_evald rfl rfl h).within

theorem evalFields_within {s : LocScope Decoder} {own : List String} {lo hi S h : Nat}
    (hs : ∀ x v, s.getValue x = some v → v.Within lo hi) (hc : Chain s own S h) (hS : lo ≤ S) (hh : h ≤ hi) :
    ∀ (fs : List (String × Expr)) {vs : List (String × ParsedValue)}, TidyFields own fs = true →
      Expr.evalFieldsLoc fs s = .ok vs → ∀ f ∈ vs, f.2.Within lo hi
  | [], vs, _, h => by rw [Expr.evalFieldsLoc] at h; cases h; simp
  | (l, e) :: fs, vs, he, h => by
    simp only [TidyFields, Bool.and_eq_true] at he
    rw [Expr.evalFieldsLoc] at h
    obtain ⟨v, h1, h⟩ := Panicky.bind_eq_ok.1 h
    obtain ⟨ws, h2, h⟩ := Panicky.bind_eq_ok.1 h
    cases h
    have i1 := eval_within hs hc hS hh e he.1 h1
    have i2 := evalFields_within hs hc hS hh fs he.2 h2
    intro f hf
    rcases List.mem_cons.1 hf with rfl | hf
    · exact i1
    · exact i2 f hf
end

end Loc
end Doodle
