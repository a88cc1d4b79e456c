import Verif.Lemmas.ValueType

/-! Facts about which values belong to which types. -/

namespace Doodle
namespace Value
open ValueType (Le LeList LeFields LeMap)

mutual
theorem HasType.mono {σ : Slack} : ∀ {v : Value} {t u : ValueType}, v.HasType σ t → Le t u → v.HasType σ u
  | .bool _, t, u, h, hl => by
    simp only [HasType] at h ⊢; subst h; cases hl; rfl
  | .num (.fixed _) _, t, u, h, hl => by
    simp only [HasType] at h ⊢; subst h; cases hl; rfl
  | .num .usize _, t, u, h, hl => by
    simp only [HasType] at h ⊢; exact ⟨h.1, hl.numeric h.2⟩
  | .char _, t, u, h, hl => by
    simp only [HasType] at h ⊢; subst h; cases hl; rfl
  | .numeric c, t, u, h, hl => by
    simp only [HasType] at h ⊢
    obtain ⟨h0, h⟩ := h
    refine ⟨h0, ?_⟩
    split at h
    · exact hl.numeric h
    · obtain ⟨h1, h2⟩ := h
      refine ⟨?_, h2⟩
      subst h1
      rename_i m _
      cases hs : m.isSigned <;> simp only [hs, if_true, Bool.false_eq_true, if_false] at hl ⊢ <;>
        cases hl <;> rfl
  | .view _, t, u, h, hl => by
    simp only [HasType] at h ⊢; subst h; cases hl; rfl
  | .phantom, t, u, h, hl => by
    simp only [HasType] at h ⊢; obtain ⟨x, h⟩ := h; subst h; cases hl; exact ⟨_, rfl⟩
  | .enumFromTo _ _, t, u, h, hl => by
    simp only [HasType] at h ⊢
    obtain ⟨x, h, h'⟩ := h
    subst h
    cases hl with
    | seq hl => exact ⟨_, rfl, h'.1, fun hlt => hl.numeric (h'.2 hlt)⟩
  | .optNone, t, u, h, hl => by
    simp only [HasType] at h ⊢; obtain ⟨x, h⟩ := h; subst h; cases hl; exact ⟨_, rfl⟩
  | .optSome v, t, u, h, hl => by
    simp only [HasType] at h ⊢
    obtain ⟨x, h, h'⟩ := h
    subst h
    cases hl with
    | option hl => exact ⟨_, rfl, h'.mono hl⟩
  | .tuple vs, t, u, h, hl => by
    simp only [HasType] at h ⊢
    obtain ⟨x, h, h'⟩ := h
    subst h
    cases hl with
    | tuple hl => exact ⟨_, rfl, HaveTypes.mono h' hl⟩
  | .record fs, t, u, h, hl => by
    simp only [HasType] at h ⊢
    obtain ⟨x, h, h'⟩ := h
    subst h
    cases hl with
    | record hl => exact ⟨_, rfl, FieldsHave.mono h' hl⟩
  | .variant l v, t, u, h, hl => by
    simp only [HasType] at h ⊢
    obtain ⟨x, y, h, hg, h'⟩ := h
    subst h
    cases hl with
    | union hl =>
      obtain ⟨z, hz, hle⟩ := hl.get hg
      exact ⟨_, z, rfl, hz, h'.mono hle⟩
  | .seq (.strict vs), t, u, h, hl => by
    simp only [HasType] at h ⊢
    obtain ⟨x, h, h'⟩ := h
    subst h
    cases hl with
    | seq hl => exact ⟨_, rfl, AllHave.mono h' hl⟩
  | .seq (.dup n x), t, u, h, hl => by
    simp only [HasType] at h ⊢
    obtain ⟨y, h, h'⟩ := h
    subst h
    cases hl with
    | seq hl => exact ⟨_, rfl, fun hn => (h' hn).mono hl⟩
  | .mapped _ v, t, u, h, hl => by
    simp only [HasType] at h ⊢; exact h.mono hl
  | .branch _ v, t, u, h, hl => by
    simp only [HasType] at h ⊢; exact h.mono hl
  | .permitOk v, t, u, h, hl => by
    simp only [HasType] at h ⊢; exact h.mono hl
  | .permitErr v, t, u, h, hl => by
    simp only [HasType] at h ⊢; exact ⟨h.1, h.2.mono hl⟩
  | .permitErrNone, t, u, h, hl => by
    simp only [HasType] at h ⊢; exact h

theorem HaveTypes.mono {σ : Slack} : ∀ {vs : List Value} {ts us : List ValueType},
    HaveTypes σ vs ts → LeList ts us → HaveTypes σ vs us
  | [], ts, us, h, hl => by
    cases hl with
    | nil => simp only [HaveTypes]
    | cons => simp only [HaveTypes] at h
  | v :: vs, ts, us, h, hl => by
    cases hl with
    | nil => simp only [HaveTypes] at h
    | cons hl hls =>
      simp only [HaveTypes] at h ⊢
      exact ⟨h.1.mono hl, HaveTypes.mono h.2 hls⟩

theorem FieldsHave.mono {σ : Slack} : ∀ {fs : List (String × Value)} {ts us : List (String × ValueType)},
    FieldsHave σ fs ts → LeFields ts us → FieldsHave σ fs us
  | [], ts, us, h, hl => by
    cases hl with
    | nil => simp only [FieldsHave]
    | cons => simp only [FieldsHave] at h
  | (l, v) :: vs, ts, us, h, hl => by
    cases hl with
    | nil => simp only [FieldsHave] at h
    | cons hl hls =>
      simp only [FieldsHave] at h ⊢
      exact ⟨h.1, h.2.1.mono hl, FieldsHave.mono h.2.2 hls⟩

theorem AllHave.mono {σ : Slack} : ∀ {vs : List Value} {t u : ValueType},
    AllHave σ vs t → Le t u → AllHave σ vs u
  | [], t, u, h, hl => by simp only [AllHave]
  | v :: vs, t, u, h, hl => by
    simp only [AllHave] at h ⊢
    exact ⟨h.1.mono hl, AllHave.mono h.2 hl⟩
end

end Value
end Doodle
