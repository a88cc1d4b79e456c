import Verif.Lemmas.GLevelOk
import Verif.Lemmas.TypedTree

/-!
Where the untyped continuation has a prefix tree, so has the typed one (generated from Lemmas/TypedTree.lean, with
the typed steps found rather than assumed).
-/

namespace Doodle
namespace GTree

section
variable {τ : Type}

def NextTo (τ : Type) (m : Module) (n : Nat) : Prop := ∀ (x : Next) (y : TNext τ) s, NRel m x y →
  Next.step m n x = .ok s → ∃ t, TNext.step m n y = .ok t

def UntypedTo (τ : Type) (m : Module) (n : Nat) : Prop := ∀ (f : Format) (x : Next) (y : TNext τ) s,
  f.Each Format.BytesHere → NRel m x y →
  Format.step m n f x = .ok s → ∃ t, Format.stepT m n f y = .ok t

def TypedTo (τ : Type) (m : Module) (n : Nat) : Prop := ∀ (f : TFormat τ) (x : Next) (y : TNext τ) s,
  f.Fit m → NRel m x y →
  Format.step m n f.erase x = .ok s → ∃ t, TFormat.step m n f y = .ok t

theorem fold_to {m : Module} {n : Nat} (hu : UntypedTo τ m n) (ht : TypedTo τ m n) {f : Format} {g : MTFormat τ}
    {x : Next} {y : TNext τ} {s} (hf : FRel m f g) (hn : NRel m x y) (h : Format.step m n f x = .ok s) :
    ∃ t, g.fold (fun f' => Format.stepT m n f' y) (fun f' => TFormat.step m n f' y) = .ok t := by
  cases hf with
  | untyped hb => exact hu _ _ _ _ hb hn h
  | typed hb => exact ht _ _ _ _ hb hn h

theorem next_to {m : Module} {n : Nat} (hn : NextTo τ m n) (hu : UntypedTo τ m n) (ht : TypedTo τ m n) :
    NextTo τ m (n + 1) := by
  intro x y s hr h
  cases hr with
  | empty =>
    simp only [Next.step, TNext.step] at h ⊢
    exact ⟨_, rfl⟩
  | union ha hb =>
    simp only [Next.step, TNext.step] at h ⊢
    obtain ⟨s1, h1, h⟩ := Outcome.bind_eq_ok.1 h
    obtain ⟨s2, h2, h⟩ := Outcome.bind_eq_ok.1 h
    cases h
    obtain ⟨t1, e1⟩ := hn _ _ _ ha h1
    obtain ⟨t2, e2⟩ := hn _ _ _ hb h2
    simp only [e1, e2, Outcome.bind_ok]
    exact ⟨_, rfl⟩
  | unionSwap ha hb =>
    simp only [Next.step, TNext.step] at h ⊢
    obtain ⟨s1, h1, h⟩ := Outcome.bind_eq_ok.1 h
    obtain ⟨s2, h2, h⟩ := Outcome.bind_eq_ok.1 h
    cases h
    obtain ⟨t1, e1⟩ := hn _ _ _ ha h1
    obtain ⟨t2, e2⟩ := hn _ _ _ hb h2
    simp only [e1, e2, Outcome.bind_ok]
    exact ⟨_, rfl⟩
  | cat hf hx =>
    simp only [Next.step, TNext.step] at h ⊢
    exact fold_to hu ht hf hx h
  | @sequence fs f' x x' hf hx =>
    cases hf with
    | untyped hb =>
      cases fs with
      | nil =>
        simp only [Next.step, TNext.step] at h ⊢
        exact hn _ _ _ hx h
      | cons f fs =>
        simp only [Next.step, TNext.step] at h ⊢
        exact hu _ _ _ _ hb.1 (.sequence (.untyped hb.2) hx) h
    | @typed fs hb =>
      cases fs with
      | nil =>
        simp only [TFormat.eraseList, Next.step, TNext.step] at h ⊢
        exact hn _ _ _ hx h
      | cons f fs =>
        simp only [TFormat.eraseList, Next.step, TNext.step] at h ⊢
        exact ht _ _ _ _ hb.1 (.sequence (.typed hb.2) hx) h
  | repeat_ hf hx =>
    simp only [Next.step, TNext.step] at h ⊢
    obtain ⟨s1, h1, h⟩ := Outcome.bind_eq_ok.1 h
    obtain ⟨s2, h2, h⟩ := Outcome.bind_eq_ok.1 h
    cases h
    obtain ⟨t1, e1⟩ := hn _ _ _ hx h1
    obtain ⟨t2, e2⟩ := fold_to hu ht hf (.repeat_ hf hx) h2
    simp only [e1, e2, Outcome.bind_ok]
    exact ⟨_, rfl⟩
  | @repeatCount k f f' x x' hf hx =>
    simp only [Next.step, TNext.step] at h ⊢
    by_cases hk : 0 < k
    · simp only [hk, if_true] at h ⊢
      exact fold_to hu ht hf (.repeatCount hf hx) h
    · simp only [hk, if_false] at h ⊢
      exact hn _ _ _ hx h
  | @repeatMax k f f' x x' hf hx =>
    simp only [Next.step, TNext.step] at h ⊢
    by_cases hk : k = 0
    · simp only [hk, if_true] at h ⊢
      exact hn _ _ _ hx h
    · simp only [hk, if_false] at h ⊢
      obtain ⟨s1, h1, h⟩ := Outcome.bind_eq_ok.1 h
      obtain ⟨s2, h2, h⟩ := Outcome.bind_eq_ok.1 h
      cases h
      obtain ⟨t1, e1⟩ := hn _ _ _ hx h1
      obtain ⟨t2, e2⟩ := fold_to hu ht hf (.repeatMax hf hx) h2
      simp only [e1, e2, Outcome.bind_ok]
      exact ⟨_, rfl⟩
  | @repeatBetween lo hi f f' x x' hf hx =>
    simp only [Next.step, TNext.step] at h ⊢
    by_cases h1 : lo = hi
    · simp only [h1, if_true] at h; cases h
    · simp only [h1, if_false] at h ⊢
      by_cases h2 : 0 < lo
      · simp only [h2, if_true] at h ⊢
        by_cases h3 : hi = 0
        · simp only [h3, if_true] at h; cases h
        · simp only [h3, if_false] at h ⊢
          exact fold_to hu ht hf (.repeatBetween hf hx) h
      · simp only [h2, if_false] at h ⊢
        exact hn _ _ _ (.repeatMax hf hx) h
  | @slice k a a' b b' ha hb =>
    simp only [Next.step, TNext.step] at h ⊢
    by_cases hk : 0 < k
    · simp only [hk, if_true] at h ⊢
      obtain ⟨s1, h1, h⟩ := Outcome.bind_eq_ok.1 h
      cases h
      obtain ⟨t1, e1⟩ := hn _ _ _ ha h1
      simp only [e1, Outcome.bind_ok]
      exact ⟨_, rfl⟩
    · simp only [hk, if_false] at h ⊢
      exact hn _ _ _ hb h
  | peek ha hb =>
    simp only [Next.step, TNext.step] at h ⊢
    obtain ⟨s1, h1, h⟩ := Outcome.bind_eq_ok.1 h
    obtain ⟨s2, h2, h⟩ := Outcome.bind_eq_ok.1 h
    cases h
    obtain ⟨t1, e1⟩ := hn _ _ _ ha h1
    obtain ⟨t2, e2⟩ := hn _ _ _ hb h2
    simp only [e1, e2, Outcome.bind_ok]
    exact ⟨_, rfl⟩
  | peekNot ha hb =>
    simp only [Next.step, TNext.step] at h ⊢
    obtain ⟨s1, h1, h⟩ := Outcome.bind_eq_ok.1 h
    obtain ⟨s2, h2, h⟩ := Outcome.bind_eq_ok.1 h
    cases h
    obtain ⟨t1, e1⟩ := hn _ _ _ ha h1
    obtain ⟨t2, e2⟩ := hn _ _ _ hb h2
    simp only [e1, e2, Outcome.bind_ok]
    exact ⟨_, rfl⟩

theorem unionAll_uto {m : Module} {n : Nat} (hu : UntypedTo τ m n) {x : Next} {y : TNext τ} (hx : NRel m x y) :
    ∀ (fs : List Format) {s s0 t0}, Format.EachOf Format.BytesHere fs →
      unionAll (fun f => Format.step m n f x) s0 fs = .ok s →
      ∃ t, GStep.unionAll (TNext.conts τ) (fun f => Format.stepT m n f y) t0 fs = .ok t
  | [], _, _, _, _, _ => ⟨_, rfl⟩
  | f :: fs, s, s0, t0, hb, h => by
    simp only [unionAll, GStep.unionAll] at h ⊢
    obtain ⟨s1, h1, h⟩ := Outcome.bind_eq_ok.1 h
    obtain ⟨t1, e1⟩ := hu _ _ _ _ hb.1 hx h1
    simp only [e1, Outcome.bind_ok]
    exact unionAll_uto hu hx fs hb.2 h

theorem unionAll_tto {m : Module} {n : Nat} (hu : TypedTo τ m n) {x : Next} {y : TNext τ} (hx : NRel m x y) :
    ∀ (fs : List (TFormat τ)) {s s0 t0}, TFormat.FitList m fs →
      unionAll (fun f => Format.step m n f x) s0 (TFormat.eraseList fs) = .ok s →
      ∃ t, GStep.unionAll (TNext.conts τ) (fun f => TFormat.step m n f y) t0 fs = .ok t
  | [], _, _, _, _, _ => ⟨_, rfl⟩
  | f :: fs, s, s0, t0, hb, h => by
    simp only [TFormat.eraseList, unionAll, GStep.unionAll] at h ⊢
    obtain ⟨s1, h1, h⟩ := Outcome.bind_eq_ok.1 h
    obtain ⟨t1, e1⟩ := hu _ _ _ _ hb.1 hx h1
    simp only [e1, Outcome.bind_ok]
    exact unionAll_tto hu hx fs hb.2 h

theorem untyped_to {m : Module} (hm : m.BytesOk) {n : Nat} (hn : NextTo τ m n) (hu : UntypedTo τ m n) :
    UntypedTo τ m (n + 1) := by
  intro f x y s hb hx h
  cases f with
  | itemVar level args views =>
    simp only [Format.step, Format.stepT] at h ⊢
    obtain ⟨it, hi, h⟩ := Outcome.bind_eq_ok.1 h
    rw [hi]
    rw [Outcome.ofPanicky_eq_ok] at hi
    refine hu _ _ _ _ (hm it ?_) hx h
    unfold Module.get at hi
    cases hg : m.items[level]? with
    | none => rw [hg] at hi; cases hi
    | some it' => rw [hg] at hi; cases hi; exact List.mem_of_getElem? hg
  | byte bs =>
    simp only [Format.step, Format.stepT] at h ⊢
    skip
    exact ⟨_, rfl⟩
  | align k =>
    simp only [Format.step, Format.stepT] at h ⊢
    by_cases h0 : k = 0
    · simp only [h0, if_true] at h; cases h
    · by_cases h1 : k = 1
      · simp only [h1, if_true] at h ⊢
        exact hn _ _ _ hx h
      · simp only [h0, h1, if_false] at h ⊢
        exact ⟨_, rfl⟩
  | fail =>
    simp only [Format.step, Format.stepT] at h ⊢
    exact ⟨_, rfl⟩
  | union fs =>
    simp only [Format.step, Format.stepT] at h ⊢
    exact unionAll_uto hu hx fs hb.2 h
  | unionNondet fs =>
    simp only [Format.step, Format.stepT] at h ⊢
    exact unionAll_uto hu hx fs hb.2 h
  | match_ e bs =>
    simp only [Format.step, Format.stepT] at h ⊢
    exact unionAll_uto hu hx _ (eachBranch_map bs hb.2) h
  | sequence fs =>
    cases fs with
    | nil => simp only [Format.step, Format.stepT] at h ⊢; exact hn _ _ _ hx h
    | cons f fs =>
      simp only [Format.step, Format.stepT] at h ⊢
      exact hu _ _ _ _ hb.2.1 (.sequence (.untyped hb.2.2) hx) h
  | tuple fs =>
    cases fs with
    | nil => simp only [Format.step, Format.stepT] at h ⊢; exact hn _ _ _ hx h
    | cons f fs =>
      simp only [Format.step, Format.stepT] at h ⊢
      exact hu _ _ _ _ hb.2.1 (.sequence (.untyped hb.2.2) hx) h
  | repeat_ a =>
    simp only [Format.step, Format.stepT] at h ⊢
    obtain ⟨s1, h1, h⟩ := Outcome.bind_eq_ok.1 h
    obtain ⟨s2, h2, h⟩ := Outcome.bind_eq_ok.1 h
    cases h
    obtain ⟨t1, e1⟩ := hn _ _ _ hx h1
    obtain ⟨t2, e2⟩ := hu _ _ _ _ hb.2 (.repeat_ (.untyped hb.2) hx) h2
    simp only [e1, e2, Outcome.bind_ok]
    exact ⟨_, rfl⟩
  | forEach e l a =>
    simp only [Format.step, Format.stepT] at h ⊢
    obtain ⟨s1, h1, h⟩ := Outcome.bind_eq_ok.1 h
    obtain ⟨b, hbd, h⟩ := Outcome.bind_eq_ok.1 h
    rw [hbd]
    simp only [Outcome.bind_ok]
    by_cases hz : b.min = 0
    · simp only [hz, if_true] at h ⊢
      by_cases hz2 : b.max = some 0
      · simp only [hz2, if_true] at h ⊢

        obtain ⟨t1, e1⟩ := hn _ _ _ hx h1
        simp only [e1, Outcome.bind_ok]
        exact ⟨_, rfl⟩
      · simp only [hz2, if_false] at h ⊢
        obtain ⟨t1, e1⟩ := hn _ _ _ hx h1
        simp only [e1, Outcome.bind_ok]
        exact ⟨_, rfl⟩
    · simp only [hz, if_false] at h ⊢
      obtain ⟨s2, h2, h⟩ := Outcome.bind_eq_ok.1 h
      cases h
      obtain ⟨t1, e1⟩ := hn _ _ _ hx h1
      obtain ⟨t2, e2⟩ := hu _ _ _ _ hb.2 (.repeat_ (.untyped hb.2) hx) h2
      simp only [e1, e2, Outcome.bind_ok]
      exact ⟨_, rfl⟩
  | repeat1 a =>
    simp only [Format.step, Format.stepT] at h ⊢
    exact hu _ _ _ _ hb.2 (.repeat_ (.untyped hb.2) hx) h
  | repeatCount e a =>
    simp only [Format.step, Format.stepT] at h ⊢
    obtain ⟨b, hbd, h⟩ := Outcome.bind_eq_ok.1 h
    rw [hbd]
    simp only [Outcome.bind_ok]
    cases hE : b.asExact with
    | some k =>
      simp only [hE] at h ⊢
      exact hn _ _ _ (.repeatCount (.untyped hb.2) hx) h
    | none =>
      simp only [hE] at h ⊢
      exact hn _ _ _ (.repeatCount (.untyped hb.2) .empty) h
  | repeatBetween e1 e2 a =>
    simp only [Format.step, Format.stepT] at h ⊢
    obtain ⟨b, hbd, h⟩ := Outcome.bind_eq_ok.1 h
    obtain ⟨c, hcd, h⟩ := Outcome.bind_eq_ok.1 h
    rw [hbd]
    rw [hcd]
    simp only [Outcome.bind_ok]
    cases hE : b.asExact with
    | none => simp only [hE] at h; cases h
    | some lo =>
      cases hF : c.asExact with
      | none => simp only [hE, hF] at h; cases h
      | some hi =>
        simp only [hE, hF] at h ⊢
        by_cases hlt : lo < hi
        · simp only [hlt, if_true] at h ⊢
          by_cases hp : 0 < lo
          · simp only [hp, if_true] at h ⊢
            exact hu _ _ _ _ hb.2 (.repeatBetween (.untyped hb.2) hx) h
          · simp only [hp, if_false] at h ⊢
            exact hn _ _ _ (.repeatMax (.untyped hb.2) hx) h
        · simp only [hlt, if_false] at h ⊢
          by_cases he : lo = hi
          · simp only [he, if_true] at h ⊢
            exact hn _ _ _ (.repeatCount (.untyped hb.2) hx) h
          · simp only [he, if_false] at h; cases h
  | maybe e a =>
    simp only [Format.step, Format.stepT] at h ⊢
    obtain ⟨s1, h1, h⟩ := Outcome.bind_eq_ok.1 h
    obtain ⟨s2, h2, h⟩ := Outcome.bind_eq_ok.1 h
    cases h
    obtain ⟨t1, e1⟩ := hu _ _ _ _ hb.2 hx h1
    obtain ⟨t2, e2⟩ := hn _ _ _ hx h2
    simp only [e1, e2, Outcome.bind_ok]
    exact ⟨_, rfl⟩
  | peek a =>
    simp only [Format.step, Format.stepT] at h ⊢
    obtain ⟨s1, h1, h⟩ := Outcome.bind_eq_ok.1 h
    obtain ⟨s2, h2, h⟩ := Outcome.bind_eq_ok.1 h
    cases h
    obtain ⟨t1, e1⟩ := hn _ _ _ hx h1
    obtain ⟨t2, e2⟩ := hu _ _ _ _ hb.2 .empty h2
    simp only [e1, e2, Outcome.bind_ok]
    exact ⟨_, rfl⟩
  | peekNot a =>
    simp only [Format.step, Format.stepT] at h ⊢
    obtain ⟨s1, h1, h⟩ := Outcome.bind_eq_ok.1 h
    obtain ⟨s2, h2, h⟩ := Outcome.bind_eq_ok.1 h
    cases h
    obtain ⟨t1, e1⟩ := hn _ _ _ hx h1
    obtain ⟨t2, e2⟩ := hu _ _ _ _ hb.2 .empty h2
    simp only [e1, e2, Outcome.bind_ok]
    exact ⟨_, rfl⟩
  | slice e a =>
    simp only [Format.step, Format.stepT] at h ⊢
    obtain ⟨b, hbd, h⟩ := Outcome.bind_eq_ok.1 h
    rw [hbd]
    simp only [Outcome.bind_ok]
    cases hE : b.asExact with
    | some k =>
      simp only [hE] at h ⊢
      exact hn _ _ _ (.slice (.cat (.untyped hb.2) .empty) hx) h
    | none =>
      simp only [hE] at h ⊢
      exact hn _ _ _ (.slice (.cat (.untyped hb.2) .empty) .empty) h
  | monadSeq a b =>
    simp only [Format.step, Format.stepT] at h ⊢
    exact hu _ _ _ _ hb.2.1 (.cat (.untyped hb.2.2) hx) h
  | letFormat a z b =>
    simp only [Format.step, Format.stepT] at h ⊢
    exact hu _ _ _ _ hb.2.1 (.cat (.untyped hb.2.2) hx) h
  | _ =>
    simp only [Format.step, Format.stepT] at h ⊢
    first
      | exact hn _ _ _ hx h
      | exact hu _ _ _ _ hb.2 hx h
      | exact ⟨_, rfl⟩

theorem typed_to {m : Module} (hm : m.BytesOk) {n : Nat} (hn : NextTo τ m n) (hu : UntypedTo τ m n)
    (ht : TypedTo τ m n) : TypedTo τ m (n + 1) := by
  intro f x y s hb hx h
  cases f with
  | formatCall ty level args views d =>
    simp only [TFormat.erase, Format.step, TFormat.step] at h ⊢
    obtain ⟨it, hi, h⟩ := Outcome.bind_eq_ok.1 h
    rw [hi]
    rw [Outcome.ofPanicky_eq_ok] at hi
    refine hu _ _ _ _ (hm it ?_) hx h
    unfold Module.get at hi
    cases hg : m.items[level]? with
    | none => rw [hg] at hi; cases hi
    | some it' => rw [hg] at hi; cases hi; exact List.mem_of_getElem? hg
  | byte bs =>
    simp only [TFormat.erase, Format.step, TFormat.step] at h ⊢
    skip
    exact ⟨_, rfl⟩
  | align k =>
    simp only [TFormat.erase, Format.step, TFormat.step] at h ⊢
    have hb : 2 ≤ k := hb
    have h0 : ¬ k = 0 := by omega
    have h1 : ¬ k = 1 := by omega
    simp only [h0, h1, if_false] at h ⊢
    exact ⟨_, rfl⟩
  | fail =>
    simp only [TFormat.erase, Format.step, TFormat.step] at h ⊢
    exact ⟨_, rfl⟩
  | union ty fs =>
    simp only [TFormat.erase, Format.step, TFormat.step] at h ⊢
    exact unionAll_tto ht hx fs hb h
  | unionNondet ty fs =>
    simp only [TFormat.erase, Format.step, TFormat.step] at h ⊢
    exact unionAll_tto ht hx fs hb h
  | match_ ty e bs =>
    simp only [TFormat.erase, Format.step, TFormat.step, eraseBranches_map] at h ⊢
    exact unionAll_tto ht hx _ (fitBranches_map m bs hb) h
  | sequence ty fs =>
    cases fs with
    | nil =>
      simp only [TFormat.erase, TFormat.eraseList, Format.step, TFormat.step] at h ⊢
      exact hn _ _ _ hx h
    | cons f fs =>
      simp only [TFormat.erase, TFormat.eraseList, Format.step, TFormat.step] at h ⊢
      exact ht _ _ _ _ hb.1 (.sequence (.typed hb.2) hx) h
  | tuple ty fs =>
    cases fs with
    | nil =>
      simp only [TFormat.erase, TFormat.eraseList, Format.step, TFormat.step] at h ⊢
      exact hn _ _ _ hx h
    | cons f fs =>
      simp only [TFormat.erase, TFormat.eraseList, Format.step, TFormat.step] at h ⊢
      exact ht _ _ _ _ hb.1 (.sequence (.typed hb.2) hx) h
  | repeat_ ty a =>
    have hb : a.Fit m := hb
    simp only [TFormat.erase, Format.step, TFormat.step] at h ⊢
    obtain ⟨s1, h1, h⟩ := Outcome.bind_eq_ok.1 h
    obtain ⟨s2, h2, h⟩ := Outcome.bind_eq_ok.1 h
    cases h
    obtain ⟨t1, e1⟩ := hn _ _ _ hx h1
    obtain ⟨t2, e2⟩ := ht _ _ _ _ hb (.repeat_ (.typed hb) hx) h2
    simp only [e1, e2, Outcome.bind_ok]
    exact ⟨_, rfl⟩
  | forEach ty e l a =>
    obtain ⟨hb, b, c, hbe, hce, hmin, hmax⟩ := hb
    simp only [TFormat.erase, Format.step, TFormat.step, hbe, hce, Outcome.ofPanicky, Outcome.bind_ok] at h ⊢
    obtain ⟨s1, h1, h⟩ := Outcome.bind_eq_ok.1 h
    by_cases hz : b.min = 0
    · have hz' := hmin.1 hz
      simp only [hz, hz', if_true] at h ⊢
      by_cases hz2 : b.max = some 0
      · have hz2' := hmax.1 hz2
        simp only [hz2, hz2', if_true] at h ⊢

        obtain ⟨t1, e1⟩ := hn _ _ _ hx h1
        simp only [e1, Outcome.bind_ok]
        exact ⟨_, rfl⟩
      · have hz2' : ¬ c.max = some 0 := fun h => hz2 (hmax.2 h)
        simp only [hz2, hz2', if_false] at h ⊢
        obtain ⟨t1, e1⟩ := hn _ _ _ hx h1
        simp only [e1, Outcome.bind_ok]
        exact ⟨_, rfl⟩
    · have hz' : ¬ c.min = 0 := fun h => hz (hmin.2 h)
      simp only [hz, hz', if_false] at h ⊢
      obtain ⟨s2, h2, h⟩ := Outcome.bind_eq_ok.1 h
      cases h
      obtain ⟨t1, e1⟩ := hn _ _ _ hx h1
      obtain ⟨t2, e2⟩ := ht _ _ _ _ hb (.repeat_ (.typed hb) hx) h2
      simp only [e1, e2, Outcome.bind_ok]
      exact ⟨_, rfl⟩
  | repeat1 ty a =>
    have hb : a.Fit m := hb
    simp only [TFormat.erase, Format.step, TFormat.step] at h ⊢
    exact ht _ _ _ _ hb (.repeat_ (.typed hb) hx) h
  | repeatCount ty e a =>
    obtain ⟨⟨b, hbe, hex, hmin⟩, hb⟩ := hb
    simp only [TFormat.erase, Format.step, TFormat.step, hbe, Outcome.ofPanicky, Outcome.bind_ok, hex, hmin] at h ⊢
    cases hE : e.typedBounds.asExact with
    | some k =>
      simp only [hE] at h ⊢
      exact hn _ _ _ (.repeatCount (.typed hb) hx) h
    | none =>
      simp only [hE] at h ⊢
      exact hn _ _ _ (.repeatCount (.typed hb) .empty) h
  | repeatBetween ty e1 e2 a =>
    obtain ⟨⟨b, hbe, hex, _⟩, ⟨c, hce, hex2, _⟩, hb⟩ := hb
    simp only [TFormat.erase, Format.step, TFormat.step, hbe, hce, Outcome.ofPanicky, Outcome.bind_ok, hex, hex2] at h ⊢
    cases hE : e1.typedBounds.asExact with
    | none => simp only [hE] at h; cases h
    | some lo =>
      cases hF : e2.typedBounds.asExact with
      | none => simp only [hE, hF] at h; cases h
      | some hi =>
        simp only [hE, hF] at h ⊢
        by_cases hlt : lo < hi
        · simp only [hlt, if_true] at h ⊢
          by_cases hp : 0 < lo
          · simp only [hp, if_true] at h ⊢
            exact ht _ _ _ _ hb (.repeatBetween (.typed hb) hx) h
          · simp only [hp, if_false] at h ⊢
            exact hn _ _ _ (.repeatMax (.typed hb) hx) h
        · simp only [hlt, if_false] at h ⊢
          by_cases he : lo = hi
          · simp only [he, if_true] at h ⊢
            exact hn _ _ _ (.repeatCount (.typed hb) hx) h
          · simp only [he, if_false] at h; cases h
  | maybe ty e a =>
    simp only [TFormat.erase, Format.step, TFormat.step] at h ⊢
    obtain ⟨s1, h1, h⟩ := Outcome.bind_eq_ok.1 h
    obtain ⟨s2, h2, h⟩ := Outcome.bind_eq_ok.1 h
    cases h
    obtain ⟨t1, e1⟩ := ht _ _ _ _ hb.2 hx h1
    obtain ⟨t2, e2⟩ := hn _ _ _ hx h2
    simp only [e1, e2, Outcome.bind_ok]
    exact ⟨_, rfl⟩
  | peek ty a =>
    have hb : a.Fit m := hb
    simp only [TFormat.erase, Format.step, TFormat.step] at h ⊢
    obtain ⟨s1, h1, h⟩ := Outcome.bind_eq_ok.1 h
    obtain ⟨s2, h2, h⟩ := Outcome.bind_eq_ok.1 h
    cases h
    obtain ⟨t1, e1⟩ := hn _ _ _ hx h1
    obtain ⟨t2, e2⟩ := ht _ _ _ _ hb .empty h2
    simp only [e1, e2, Outcome.bind_ok]
    exact ⟨_, rfl⟩
  | peekNot ty a =>
    have hb : a.Fit m := hb
    simp only [TFormat.erase, Format.step, TFormat.step] at h ⊢
    obtain ⟨s1, h1, h⟩ := Outcome.bind_eq_ok.1 h
    obtain ⟨s2, h2, h⟩ := Outcome.bind_eq_ok.1 h
    cases h
    obtain ⟨t1, e1⟩ := hn _ _ _ hx h1
    obtain ⟨t2, e2⟩ := ht _ _ _ _ hb .empty h2
    simp only [e1, e2, Outcome.bind_ok]
    exact ⟨_, rfl⟩
  | slice ty e a =>
    obtain ⟨⟨b, hbe, hex, hmin⟩, hb⟩ := hb
    simp only [TFormat.erase, Format.step, TFormat.step, hbe, Outcome.ofPanicky, Outcome.bind_ok, hex, hmin] at h ⊢
    cases hE : e.typedBounds.asExact with
    | some k =>
      simp only [hE] at h ⊢
      exact hn _ _ _ (.slice (.cat (.typed hb) .empty) hx) h
    | none =>
      simp only [hE] at h ⊢
      exact hn _ _ _ (.slice (.cat (.typed hb) .empty) .empty) h
  | variant ty l a =>
    simp only [TFormat.erase, Format.step, TFormat.step] at h ⊢
    exact ht _ _ _ _ hb.2 hx h
  | monadSeq ty a b =>
    simp only [TFormat.erase, Format.step, TFormat.step] at h ⊢
    exact ht _ _ _ _ hb.1 (.cat (.typed hb.2) hx) h
  | letFormat ty a z b =>
    simp only [TFormat.erase, Format.step, TFormat.step] at h ⊢
    exact ht _ _ _ _ hb.1 (.cat (.typed hb.2) hx) h
  | _ =>
    simp only [TFormat.erase, Format.step, TFormat.step] at h ⊢
    first
      | exact hn _ _ _ hx h
      | (refine ht _ _ _ _ ?_ hx h; exact hb)
      | exact ⟨_, rfl⟩

theorem steps_to {m : Module} (hm : m.BytesOk) : ∀ n, NextTo τ m n ∧ UntypedTo τ m n ∧ TypedTo τ m n
  | 0 => ⟨(fun _ _ _ _ h => nomatch h), (fun _ _ _ _ _ _ h => nomatch h), (fun _ _ _ _ _ _ h => nomatch h)⟩
  | n + 1 => by
    obtain ⟨hn, hu, ht⟩ := steps_to hm n
    exact ⟨next_to hn hu ht, untyped_to hm hn hu, typed_to hm hn hu ht⟩

/-- For related continuations, the code generator's compiler finds a tree if the interpreter's does. -/
theorem build_to {m : Module} (hm : m.BytesOk) {ord : HashOrder} {ord' : GHashOrder (TNext τ)} (ho : ord.Valid)
    (ho' : ord'.Valid) {fuel : Nat} {fs : List Format} (hf : Format.EachOf Format.BytesHere fs) {x : Next}
    {y : TNext τ} (hx : NRel m x y) {t : MatchTree} (h : MatchTree.build m ord fuel fs x = .ok (some t)) :
    ∃ t', TNext.build m ord' fuel fs y = .ok (some t') := by
  unfold MatchTree.build at h
  unfold TNext.build
  rw [← grow_eq] at h
  refine grow_succ (R := NRel m) ?_ ?_ ho ho' _ _ _ _ _ _ (initial_rel hx fs 0 hf) h
  · intro x y s t hr hs ht
    unfold gstep at hs
    obtain ⟨s0, h0, hs⟩ := Outcome.bind_eq_ok.1 hs
    cases hs
    exact (steps_ok hm fuel).1 x y s0 t hr h0 ht
  · intro x y s hr hs
    unfold gstep at hs
    obtain ⟨s0, h0, hs⟩ := Outcome.bind_eq_ok.1 hs
    exact (steps_to hm fuel).1 x y s0 hr h0

end
end GTree
end Doodle
