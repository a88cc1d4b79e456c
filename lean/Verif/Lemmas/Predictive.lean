import Verif.Spec.Predictive
import Verif.Lemmas.Complete

/-! Lemmas for predictive formats (C12): what the first byte says about the alternatives of a prefix tree. -/

namespace Doodle

open Grammar Tree ByteSet

namespace Predictive

/-! ## The first bytes of a step -/

/-- some branch is taken on the byte -/
def Has (l : List (ByteSet × Next)) (b : UInt8) : Prop := ∃ p ∈ l, p.1.contains b = true

theorem Has.nil {b} : ¬ Has [] b := fun ⟨_, h, _⟩ => nomatch h

theorem Has.cons {p : ByteSet × Next} {l b} : Has (p :: l) b ↔ p.1.contains b = true ∨ Has l b := by
  simp [Has]

theorem Has.append {l l' : List (ByteSet × Next)} {b} : Has (l ++ l') b ↔ Has l b ∨ Has l' b := by
  simp [Has, or_and_right, exists_or]

theorem has_iff {s : Step} {b} : Has s.branches b ↔ ∃ y, Step.To s b y := by
  constructor
  · rintro ⟨⟨bs, y⟩, h, hb⟩; exact ⟨y, bs, h, hb⟩
  · rintro ⟨y, bs, h, hb⟩; exact ⟨(bs, y), h, hb⟩

theorem split_has (x : Next) : ∀ (l : List (ByteSet × Next)) (bs : ByteSet) (b : UInt8),
    (Has (Step.splitBranches x bs l).1 b ∨ Has (Step.splitBranches x bs l).2.2 b ∨
      (Step.splitBranches x bs l).2.1.contains b = true) ↔ Has l b ∨ bs.contains b = true
  | [], bs, b => by simp [Step.splitBranches, Has]
  | (bs0, y) :: l, bs, b => by
    simp only [Step.splitBranches]
    split
    · have ih := split_has x l bs b
      rw [Has.cons, Has.cons, or_assoc, ih, or_assoc]
    · have ih := split_has x l (bs.difference (bs0.intersection bs)) b
      have hq : Has (if (bs0.difference bs).isEmpty then (Step.splitBranches x (bs.difference (bs0.intersection bs)) l).2.2
          else (bs0.difference bs, y) :: (Step.splitBranches x (bs.difference (bs0.intersection bs)) l).2.2) b ↔
          (bs0.contains b = true ∧ ¬ bs.contains b = true) ∨
            Has (Step.splitBranches x (bs.difference (bs0.intersection bs)) l).2.2 b := by
        split
        · next he =>
          rw [C01_isEmpty] at he
          have := he b
          rw [C01_contains_difference] at this
          constructor
          · exact .inr
          · rintro (h | h)
            · exact absurd h this
            · exact h
        · rw [Has.cons]
          simp only [C01_contains_difference]
      rw [hq, Has.cons, Has.cons]
      simp only [C01_contains_intersection, C01_contains_difference] at ih ⊢
      by_cases h1 : bs0.contains b = true <;> by_cases h2 : bs.contains b = true <;>
        simp only [h1, h2, true_and, false_and, and_true, and_false, not_true_eq_false, not_false_eq_true, false_or,
          or_false, Bool.false_eq_true] at ih ⊢ <;> grind

theorem unionBranch_has (s : Step) (bs : ByteSet) (x : Next) (b : UInt8) :
    Has (s.unionBranch bs x).branches b ↔ Has s.branches b ∨ bs.contains b = true := by
  rw [← split_has x s.branches bs b]
  unfold Step.unionBranch
  dsimp only
  generalize Step.splitBranches x bs s.branches = r
  rw [Has.append, Has.append]
  have : Has (if r.2.1.isEmpty then [] else [(r.2.1, x)]) b ↔ r.2.1.contains b = true := by
    split
    · next he =>
      rw [C01_isEmpty] at he
      exact ⟨fun h => absurd h Has.nil, fun h => absurd h (he b)⟩
    · rw [Has.cons]; simp [Has.nil]
  rw [this, or_assoc]
  exact or_congr Iff.rfl or_comm

theorem unionBranches_has : ∀ (l : List (ByteSet × Next)) (s : Step),
    (Step.unionBranches s l).accept = s.accept ∧ ∀ b, Has (Step.unionBranches s l).branches b ↔ Has s.branches b ∨ Has l b
  | [], s => ⟨rfl, fun b => by simp [Step.unionBranches, Has.nil]⟩
  | (bs, x) :: l, s => by
    have ih := unionBranches_has l (s.unionBranch bs x)
    refine ⟨ih.1, fun b => ?_⟩
    rw [Step.unionBranches, ih.2, unionBranch_has, Has.cons, or_assoc]

theorem union_has {s t : Step} : ((s.union t).accept = true ↔ s.accept = true ∨ t.accept = true) ∧
    ∀ b, Has (s.union t).branches b ↔ Has s.branches b ∨ Has t.branches b := by
  have := unionBranches_has t.branches { s with accept := s.accept || t.accept }
  refine ⟨?_, this.2⟩
  unfold Step.union
  rw [this.1, Bool.or_eq_true]

theorem unionAll_has {step : Format → Run Step} : ∀ {fs : List Format} {s t : Step}, unionAll step s fs = .ok t →
    (∀ f ∈ fs, ∃ u, step f = .ok u) ∧
    (t.accept = true ↔ s.accept = true ∨ ∃ f ∈ fs, ∃ u, step f = .ok u ∧ u.accept = true) ∧
    ∀ b, Has t.branches b ↔ Has s.branches b ∨ ∃ f ∈ fs, ∃ u, step f = .ok u ∧ Has u.branches b
  | [], s, t, h => by cases h; simp
  | f :: fs, s, t, h => by
    obtain ⟨u, hu, h⟩ := Outcome.bind_eq_ok.1 h
    obtain ⟨h1, h2, h3⟩ := unionAll_has h
    have hx := @union_has s u
    refine ⟨?_, ?_, ?_⟩
    · simp only [List.forall_mem_cons]; exact ⟨⟨u, hu⟩, h1⟩
    · rw [h2, hx.1]; simp [hu, or_assoc]
    · intro b; rw [h3, hx.2]; simp [hu, or_assoc]

theorem peekBranch_has (bs1 : ByteSet) (x : Next) (b : UInt8) : ∀ l : List (ByteSet × Next),
    Has (Step.peekBranch bs1 x l) b ↔ bs1.contains b = true ∧ Has l b
  | [] => by simp [Step.peekBranch, Has.nil]
  | (bs2, y) :: l => by
    have ih := peekBranch_has bs1 x b l
    simp only [Step.peekBranch]
    split
    · next he =>
      rw [inter_empty] at he
      have := he b
      rw [ih, Has.cons]
      constructor
      · exact fun h => ⟨h.1, .inr h.2⟩
      · rintro ⟨h1, h2 | h2⟩
        · exact absurd ⟨h1, h2⟩ this
        · exact ⟨h1, h2⟩
    · rw [Has.cons, Has.cons, ih, C01_contains_intersection, and_or_left]

theorem peek_has {s p : Step} {b : UInt8} (h : Has (s.peek p).branches b) : Has s.branches b ∨ Has p.branches b := by
  unfold Step.peek at h
  split at h
  · exact .inl h
  · split at h
    · exact .inr h
    · obtain ⟨q, hq, hb⟩ := h
      obtain ⟨r, hr, hq⟩ := List.mem_flatMap.1 hq
      exact .inl ⟨r, hr, ((peekBranch_has _ _ b _).1 ⟨q, hq, hb⟩).1⟩

theorem peekNotBranch_has (bs1 : ByteSet) (x : Next) (b : UInt8) : ∀ (l : List (ByteSet × Next)) (diff : ByteSet),
    (diff.contains b = true → bs1.contains b = true) →
    Has (Step.peekNotBranch bs1 x diff l).1 b ∨ (Step.peekNotBranch bs1 x diff l).2.contains b = true → bs1.contains b = true
  | [], diff, hd, h => by
    simp only [Step.peekNotBranch] at h
    exact hd (h.resolve_left Has.nil)
  | (bs2, y) :: l, diff, hd, h => by
    have ih := peekNotBranch_has bs1 x b l (diff.difference bs2) (fun h => hd (by
      rw [C01_contains_difference] at h; exact h.1))
    simp only [Step.peekNotBranch] at h
    split at h
    · exact ih h
    · rcases h with h | h
      · rcases Has.cons.1 h with h | h
        · rw [C01_contains_intersection] at h; exact h.1
        · exact ih (.inl h)
      · exact ih (.inr h)

theorem peekNot_has {s p : Step} {b : UInt8} (h : Has (s.peekNot p).branches b) : Has s.branches b := by
  unfold Step.peekNot at h
  split at h
  · exact absurd h Has.nil
  · obtain ⟨q, hq, hb⟩ := h
    obtain ⟨r, hr, hq⟩ := List.mem_flatMap.1 hq
    refine ⟨r, hr, peekNotBranch_has r.1 r.2 b p.branches r.1 id ?_⟩
    simp only [] at hq
    rcases List.mem_append.1 hq with hq | hq
    · exact .inl ⟨q, hq, hb⟩
    · split at hq
      · cases hq
      · rw [List.mem_singleton] at hq; subst hq; exact .inr hb

/-! ## The first bytes of a continuation -/

/-- the byte may come first in what follows -/
def Begins (m : Module) (b : UInt8) : Next → Prop
  | .empty => False
  | .union x y => Begins m b x ∨ Begins m b y
  | .cat f x => Starts m f b ∨ (Skips m f ∧ Begins m b x)
  | .sequence fs x => Starts m (.tuple fs) b ∨ ((∀ f ∈ fs, Skips m f) ∧ Begins m b x)
  | .repeat_ f x => Starts m f b ∨ Begins m b x
  | .repeatCount n f x => Starts m f b ∨ ((n = 0 ∨ Skips m f) ∧ Begins m b x)
  | .repeatMax _ f x => Starts m f b ∨ Begins m b x
  | .repeatBetween _ _ f x => Starts m f b ∨ Begins m b x
  | .slice n _ x => 0 < n ∨ Begins m b x
  | .peek x y => Begins m b x ∨ Begins m b y
  | .peekNot x _ => Begins m b x

theorem starts_nil {m : Module} {b : UInt8} : ¬ Starts m (.tuple []) b := by
  intro h
  cases h with
  | tuple he _ _ => simp at he

theorem starts_cons {m : Module} {f : Format} {fs : List Format} {b : UInt8} :
    Starts m (.tuple (f :: fs)) b ↔ Starts m f b ∨ (Skips m f ∧ Starts m (.tuple fs) b) := by
  constructor
  · intro h
    cases h with
    | @tuple _ pre g post _ he h1 h2 =>
      cases pre with
      | nil => cases he; exact .inl h2
      | cons p pre =>
        simp only [List.cons_append, List.cons.injEq] at he
        obtain ⟨rfl, rfl⟩ := he
        exact .inr ⟨h1 _ List.mem_cons_self, .tuple rfl (fun g hg => h1 g (List.mem_cons_of_mem _ hg)) h2⟩
  · rintro (h | ⟨h1, h2⟩)
    · exact Starts.tuple (pre := []) rfl (by simp) h
    · cases h2 with
      | @tuple _ pre g post _ he h3 h4 =>
        subst he
        exact Starts.tuple (pre := f :: pre) rfl (by simpa using ⟨h1, h3⟩) h4

theorem starts_sequence {m : Module} {fs : List Format} {b : UInt8} : Starts m (.sequence fs) b ↔ Starts m (.tuple fs) b := by
  constructor
  · intro h
    cases h with
    | sequence he h1 h2 => exact .tuple he h1 h2
  · intro h
    cases h with
    | tuple he h1 h2 => exact .sequence he h1 h2

theorem skips_tuple {m : Module} {fs : List Format} : Skips m (.tuple fs) ↔ ∀ f ∈ fs, Skips m f :=
  ⟨fun h => by cases h with | tuple h => exact h, .tuple⟩

variable {m : Module}

/-- Lemma: every first byte of a step may come first. -/
theorem step_begins (b : UInt8) : ∀ n : Nat,
    (∀ x s, Next.step m n x = .ok s → Has s.branches b → Begins m b x) ∧
    (∀ f x s, Format.step m n f x = .ok s → Has s.branches b → Begins m b (.cat f x))
  | 0 => ⟨(by intro x s h; simp [Next.step] at h), (by intro f x s h; simp [Format.step] at h)⟩
  | n + 1 => by
    obtain ⟨ihn, ihf⟩ := step_begins b n
    constructor
    · intro x s h hb
      match x with
      | .empty => simp only [Next.step] at h; cases h; exact absurd hb Has.nil
      | .union x y =>
        simp only [Next.step] at h
        obtain ⟨t1, h1, h⟩ := Outcome.bind_eq_ok.1 h
        obtain ⟨t2, h2, h⟩ := Outcome.bind_eq_ok.1 h
        cases h
        exact ((union_has.2 b).1 hb).imp (ihn _ _ h1) (ihn _ _ h2)
      | .cat f x => simp only [Next.step] at h; exact ihf _ _ _ h hb
      | .sequence [] x =>
        simp only [Next.step] at h
        exact .inr ⟨by simp, ihn _ _ h hb⟩
      | .sequence (f :: fs) x =>
        simp only [Next.step] at h
        have := ihf _ _ _ h hb
        simp only [Begins] at this ⊢
        rw [starts_cons]
        simp only [List.forall_mem_cons]
        grind
      | .repeat_ f x =>
        simp only [Next.step] at h
        obtain ⟨t1, h1, h⟩ := Outcome.bind_eq_ok.1 h
        obtain ⟨t2, h2, h⟩ := Outcome.bind_eq_ok.1 h
        cases h
        have e1 := ihn _ _ h1
        have e2 := ihf _ _ _ h2
        rcases (union_has.2 b).1 hb with hb | hb
        · exact .inr (e1 hb)
        · have := e2 hb
          simp only [Begins] at this ⊢
          grind
      | .repeatBetween lo hi f x =>
        simp only [Next.step] at h
        split at h
        · cases h
        · split at h
          · split at h
            · cases h
            · have := ihf _ _ _ h hb
              simp only [Begins] at this ⊢
              grind
          · have := ihn _ _ h hb
            simpa only [Begins] using this
      | .repeatMax k f x =>
        simp only [Next.step] at h
        split at h
        · exact .inr (ihn _ _ h hb)
        · obtain ⟨t1, h1, h⟩ := Outcome.bind_eq_ok.1 h
          obtain ⟨t2, h2, h⟩ := Outcome.bind_eq_ok.1 h
          cases h
          rcases (union_has.2 b).1 hb with hb | hb
          · exact .inr (ihn _ _ h1 hb)
          · have := ihf _ _ _ h2 hb
            simp only [Begins] at this ⊢
            grind
      | .repeatCount k f x =>
        simp only [Next.step] at h
        split at h
        · have := ihf _ _ _ h hb
          simp only [Begins] at this ⊢
          grind
        · exact .inr ⟨.inl (by omega), ihn _ _ h hb⟩
      | .slice k y x =>
        simp only [Next.step] at h
        split at h
        · exact .inl (by assumption)
        · exact .inr (ihn _ _ h hb)
      | .peek x y =>
        simp only [Next.step] at h
        obtain ⟨t1, h1, h⟩ := Outcome.bind_eq_ok.1 h
        obtain ⟨t2, h2, h⟩ := Outcome.bind_eq_ok.1 h
        cases h
        exact (peek_has hb).imp (ihn _ _ h1) (ihn _ _ h2)
      | .peekNot x y =>
        simp only [Next.step] at h
        obtain ⟨t1, h1, h⟩ := Outcome.bind_eq_ok.1 h
        obtain ⟨t2, h2, h⟩ := Outcome.bind_eq_ok.1 h
        cases h
        exact (ihn _ _ h1 (peekNot_has hb) : Begins m b x)
    · intro f x s h hb
      have pass : ∀ g s', Format.step m n g x = .ok s' → Has s'.branches b → (Starts m g b → Starts m f b) →
          (Skips m g → Skips m f) → Begins m b (.cat f x) := by
        intro g s' h hb h1 h2
        rcases ihf _ _ _ h hb with h | h
        · exact .inl (h1 h)
        · exact .inr ⟨h2 h.1, h.2⟩
      have over : Skips m f → ∀ s', Next.step m n x = .ok s' → Has s'.branches b → Begins m b (.cat f x) :=
        fun hs s' h hb => .inr ⟨hs, ihn _ _ h hb⟩
      cases f with
      | itemVar level args views =>
        simp only [Format.step] at h
        obtain ⟨it, h1, h⟩ := Outcome.bind_eq_ok.1 h
        have h1 := Compiler.unwrap_eq_ok.1 (Outcome.ofPanicky_eq_ok.1 h1)
        exact pass _ _ h hb (.itemVar h1) (.itemVar h1)
      | fail => simp only [Format.step] at h; cases h; exact absurd hb Has.nil
      | phantom _ => simp only [Format.step] at h; cases h; exact absurd hb Has.nil
      | endOfInput => simp only [Format.step] at h; cases h; exact absurd hb Has.nil
      | skipRemainder => simp only [Format.step] at h; cases h; exact absurd hb Has.nil
      | align k =>
        simp only [Format.step] at h
        split at h
        · cases h
        · split at h
          · exact over .align _ h hb
          · cases h; exact absurd hb Has.nil
      | decodeBytes _ _ => simp only [Format.step] at h; exact over .decodeBytes _ h hb
      | parseFromView _ _ => simp only [Format.step] at h; exact over .parseFromView _ h hb
      | byte bs =>
        simp only [Format.step] at h
        cases h
        rcases Has.cons.1 hb with hb | hb
        · exact .inl (.byte hb)
        · exact absurd hb Has.nil
      | variant _ f => simp only [Format.step] at h; exact pass _ _ h hb .variant .variant
      | union fs =>
        simp only [Format.step] at h
        rcases ((unionAll_has h).2.2 b).1 hb with hb | ⟨f, hf, u, h1, hb⟩
        · exact absurd hb Has.nil
        · exact pass _ _ h1 hb (.union hf) (.union hf)
      | unionNondet fs =>
        simp only [Format.step] at h
        rcases ((unionAll_has h).2.2 b).1 hb with hb | ⟨f, hf, u, h1, hb⟩
        · exact absurd hb Has.nil
        · exact pass _ _ h1 hb (.unionNondet hf) (.unionNondet hf)
      | sequence fs =>
        cases fs with
        | nil => simp only [Format.step] at h; exact over (.sequence (by simp)) _ h hb
        | cons f fs =>
          simp only [Format.step] at h
          have := ihf _ _ _ h hb
          simp only [Begins] at this ⊢
          rw [starts_sequence, starts_cons]
          rcases this with h | ⟨h1, h | ⟨h2, h3⟩⟩
          · exact .inl (.inl h)
          · exact .inl (.inr ⟨h1, h⟩)
          · exact .inr ⟨.sequence (by simpa using ⟨h1, h2⟩), h3⟩
      | tuple fs =>
        cases fs with
        | nil => simp only [Format.step] at h; exact over (.tuple (by simp)) _ h hb
        | cons f fs =>
          simp only [Format.step] at h
          have := ihf _ _ _ h hb
          simp only [Begins] at this ⊢
          rw [starts_cons]
          rcases this with h | ⟨h1, h | ⟨h2, h3⟩⟩
          · exact .inl (.inl h)
          · exact .inl (.inr ⟨h1, h⟩)
          · exact .inr ⟨.tuple (by simpa using ⟨h1, h2⟩), h3⟩
      | repeat_ f =>
        simp only [Format.step] at h
        obtain ⟨t1, h1, h⟩ := Outcome.bind_eq_ok.1 h
        obtain ⟨t2, h2, h⟩ := Outcome.bind_eq_ok.1 h
        cases h
        rcases (union_has.2 b).1 hb with hb | hb
        · exact over .repeat_ _ h1 hb
        · rcases ihf _ _ _ h2 hb with h | ⟨h1, h | h⟩
          · exact .inl (.repeat_ h)
          · exact .inl (.repeat_ h)
          · exact .inr ⟨.repeat_, h⟩
      | forEach e l f =>
        simp only [Format.step] at h
        obtain ⟨t1, h1, h⟩ := Outcome.bind_eq_ok.1 h
        obtain ⟨bd, -, h⟩ := Outcome.bind_eq_ok.1 h
        split at h
        · split at h
          · cases h; exact over .forEach _ h1 hb
          · cases h; exact absurd hb Has.nil
        · obtain ⟨t2, h2, h⟩ := Outcome.bind_eq_ok.1 h
          cases h
          rcases (union_has.2 b).1 hb with hb | hb
          · exact over .forEach _ h1 hb
          · rcases ihf _ _ _ h2 hb with h | ⟨h1, h | h⟩
            · exact .inl (.forEach h)
            · exact .inl (.forEach h)
            · exact .inr ⟨.forEach, h⟩
      | repeat1 f =>
        simp only [Format.step] at h
        rcases ihf _ _ _ h hb with h | ⟨h1, h | h⟩
        · exact .inl (.repeat1 h)
        · exact .inl (.repeat1 h)
        · exact .inr ⟨.repeat1 h1, h⟩
      | repeatCount e f =>
        simp only [Format.step] at h
        obtain ⟨bd, h1, h⟩ := Outcome.bind_eq_ok.1 h
        have h1 := Outcome.ofPanicky_eq_ok.1 h1
        split at h
        · next k hk =>
          rcases ihn _ _ h hb with h | ⟨h2 | h2, h⟩
          · exact .inl (.repeatCount h)
          · refine .inr ⟨.repeatCount_zero fun b' hb' => ?_, h⟩
            rw [h1] at hb'
            cases hb'
            unfold Bounds.asExact at hk
            grind
          · exact .inr ⟨.repeatCount_some h2, h⟩
        · rcases ihn _ _ h hb with h | ⟨-, h⟩
          · exact .inl (.repeatCount h)
          · exact h.elim
      | repeatBetween x y f =>
        simp only [Format.step] at h
        obtain ⟨bx, -, h⟩ := Outcome.bind_eq_ok.1 h
        obtain ⟨by_, -, h⟩ := Outcome.bind_eq_ok.1 h
        split at h
        · split at h
          · split at h
            · rcases ihf _ _ _ h hb with h | ⟨h1, h | h⟩
              · exact .inl (.repeatBetween h)
              · exact .inl (.repeatBetween h)
              · exact .inr ⟨.repeatBetween, h⟩
            · rcases ihn _ _ h hb with h | h
              · exact .inl (.repeatBetween h)
              · exact .inr ⟨.repeatBetween, h⟩
          · split at h
            · rcases ihn _ _ h hb with h | h
              · exact .inl (.repeatBetween h)
              · exact .inr ⟨.repeatBetween, h.2⟩
            · cases h
        · cases h
      | repeatUntilLast _ _ => simp only [Format.step] at h; cases h; exact absurd hb Has.nil
      | repeatUntilSeq _ _ => simp only [Format.step] at h; cases h; exact absurd hb Has.nil
      | accumUntil _ _ _ _ _ => simp only [Format.step] at h; cases h; exact absurd hb Has.nil
      | maybe _ f =>
        simp only [Format.step] at h
        obtain ⟨t1, h1, h⟩ := Outcome.bind_eq_ok.1 h
        obtain ⟨t2, h2, h⟩ := Outcome.bind_eq_ok.1 h
        cases h
        rcases (union_has.2 b).1 hb with hb | hb
        · exact pass _ _ h1 hb .maybe (fun _ => .maybe)
        · exact over .maybe _ h2 hb
      | peek f =>
        simp only [Format.step] at h
        obtain ⟨t1, h1, h⟩ := Outcome.bind_eq_ok.1 h
        obtain ⟨t2, h2, h⟩ := Outcome.bind_eq_ok.1 h
        cases h
        rcases peek_has hb with hb | hb
        · exact over .peek _ h1 hb
        · rcases ihf _ _ _ h2 hb with h | h
          · exact .inl (.peek h)
          · exact h.2.elim
      | peekNot f =>
        simp only [Format.step] at h
        obtain ⟨t1, h1, h⟩ := Outcome.bind_eq_ok.1 h
        obtain ⟨t2, h2, h⟩ := Outcome.bind_eq_ok.1 h
        cases h
        exact over .peekNot _ h1 (peekNot_has hb)
      | slice _ _ => exact .inl .slice
      | bits _ => exact .inl .bits
      | withRelativeOffset _ _ _ => simp only [Format.step] at h; cases h; exact absurd hb Has.nil
      | map f _ => simp only [Format.step] at h; exact pass _ _ h hb .map .map
      | where_ f _ _ => simp only [Format.step] at h; exact pass _ _ h hb .where_ .where_
      | pos => simp only [Format.step] at h; exact over .pos _ h hb
      | compute _ => simp only [Format.step] at h; exact over .compute _ h hb
      | let_ _ _ f => simp only [Format.step] at h; exact pass _ _ h hb .let_ .let_
      | letView _ f => simp only [Format.step] at h; exact pass _ _ h hb .letView .letView
      | permit f _ => simp only [Format.step] at h; exact pass _ _ h hb .permit .permit
      | enforce f => simp only [Format.step] at h; exact pass _ _ h hb .enforce .enforce
      | match_ e bs =>
        simp only [Format.step] at h
        rcases ((unionAll_has h).2.2 b).1 hb with hb | ⟨f, hf, u, h1, hb⟩
        · exact absurd hb Has.nil
        · obtain ⟨⟨p, f⟩, hq, rfl⟩ := List.mem_map.1 hf
          exact pass _ _ h1 hb (.match_ hq) (.match_ hq)
      | dynamic _ _ _ f => simp only [Format.step] at h; exact pass _ _ h hb .dynamic .dynamic
      | apply _ => simp only [Format.step] at h; cases h; exact absurd hb Has.nil
      | monadSeq f g =>
        simp only [Format.step] at h
        rcases ihf _ _ _ h hb with h | ⟨h1, h | ⟨h2, h3⟩⟩
        · exact .inl (.monadSeq h)
        · exact .inl (.monadSeq_skip h1 h)
        · exact .inr ⟨.monadSeq h1 h2, h3⟩
      | letFormat f _ g =>
        simp only [Format.step] at h
        rcases ihf _ _ _ h hb with h | ⟨h1, h | ⟨h2, h3⟩⟩
        · exact .inl (.letFormat h)
        · exact .inl (.letFormat_skip h1 h)
        · exact .inr ⟨.letFormat h1 h2, h3⟩
      | hint f => simp only [Format.step] at h; exact pass _ _ h hb .hint .hint
      | liftedNone => simp only [Format.step] at h; exact over .liftedNone _ h hb
      | liftedSome f => simp only [Format.step] at h; exact pass _ _ h hb .liftedSome .liftedSome
      | captureBytes _ _ => simp only [Format.step] at h; exact over .captureBytes _ h hb
      | readArray _ _ _ => simp only [Format.step] at h; exact over .readArray _ h hb
      | reifyView _ => simp only [Format.step] at h; exact over .reifyView _ h hb

/-! ## What a derivation begins with -/

/-- the byte at a position -/
def At (c : ReadCtxt) (b : UInt8) : Prop := c.input[c.offset]? = some b

variable {Φ : Nat → UInt8 → Prop} {tr sm : Bool}

theorem each_get {F : UInt8 → Prop} {fs : List Format} (h : Format.EachPredictive m Φ tr sm F fs) :
    ∀ f ∈ fs, f.Predictive m Φ tr sm F := by
  induction fs with
  | nil => intro f hf; cases hf
  | cons g fs ih =>
    simp only [Format.EachPredictive] at h
    intro f hf
    rcases List.mem_cons.1 hf with rfl | hf
    · exact h.1
    · exact ih h.2 f hf

theorem branches_get {F : UInt8 → Prop} {fs : List (Pattern × Format)} (h : Format.BranchesPredictive m Φ tr sm F fs) :
    ∀ p ∈ fs, p.2.Predictive m Φ tr sm F := by
  induction fs with
  | nil => intro f hf; cases hf
  | cons g fs ih =>
    obtain ⟨q, g⟩ := g
    simp only [Format.BranchesPredictive] at h
    intro f hf
    rcases List.mem_cons.1 hf with rfl | hf
    · exact h.1
    · exact ih h.2 f hf

/-- the derivation from `c` to `c'` reads a first byte announcing the format, or nothing -/
def Opens (m : Module) (f : Format) (c c' : ReadCtxt) : Prop := ∀ b, At c b → Starts m f b ∨ (Skips m f ∧ At c' b)

theorem Opens.pass {f g : Format} {c c' : ReadCtxt} (h : Opens m f c c') (h1 : ∀ b, Starts m f b → Starts m g b)
    (h2 : Skips m f → Skips m g) : Opens m g c c' := fun b hb => (h b hb).imp (h1 b) fun h => ⟨h2 h.1, h.2⟩

theorem Opens.skip {f : Format} {c : ReadCtxt} (h : Skips m f) : Opens m f c c := fun _ hb => .inr ⟨h, hb⟩

/-- the same for one format again and again -/
def OpensMany (m : Module) (f : Format) (c c' : ReadCtxt) (n : Nat) : Prop :=
  ∀ b, At c b → Starts m f b ∨ ((n = 0 ∨ Skips m f) ∧ At c' b)

mutual
theorem opens (hm : m.Predictive Φ tr sm) :
    ∀ {f s c v c' k}, Parses m never f s c v c' k → ∀ {F}, f.Predictive m Φ tr sm F → Opens m f c c'
  | _, _, _, _, _, _, .itemVar hi _ _ h, _, _ => (opens hm h (hm _ _ hi)).pass (fun _ => .itemVar hi) (.itemVar hi)
  | _, _, c, _, _, _, .endOfInput hl, _, _ => fun b hb => by
    have := (List.getElem?_eq_some_iff.1 hb).1
    omega
  | _, _, c, _, _, _, .align (n := n) (o := o) h1 h2 h3 h4 h5, _, _ => fun b hb => by
    by_cases hn : n = 1
    · have : o = c.offset := by omega
      subst this
      exact .inr ⟨.align, hb⟩
    · exact .inl (.align hn)
  | _, _, _, _, _, _, .byte h1 h2, _, _ => fun b hb => by
    have hb : _ = some b := hb
    rw [h1] at hb
    cases hb
    exact .inl (.byte h2)
  | _, _, _, _, _, _, .variant h, _, hp => by
    simp only [Format.Predictive] at hp
    exact (opens hm h hp).pass (fun _ => .variant) .variant
  | _, _, _, _, _, _, .union hi h, _, hp => by
    simp only [Format.Predictive] at hp
    have hmem := List.mem_of_getElem? hi
    exact (opens hm h (each_get hp.1 _ hmem)).pass (fun _ => .union hmem) (.union hmem)
  | _, _, _, _, _, _, .unionNondet hi _ h, _, hp => by
    simp only [Format.Predictive] at hp
    have hmem := List.mem_of_getElem? hi
    exact (opens hm h (each_get hp _ hmem)).pass (fun _ => .unionNondet hmem) (.unionNondet hmem)
  | _, _, _, _, _, _, .tuple h, _, hp => by
    simp only [Format.Predictive] at hp
    exact opensFields hm h hp
  | _, _, _, _, _, _, .sequence h, _, hp => by
    simp only [Format.Predictive] at hp
    exact (opensFields hm h hp).pass (fun _ => starts_sequence.2) fun h => .sequence (skips_tuple.1 h)
  | _, _, _, _, _, _, .repeat_ h, _, hp => by
    simp only [Format.Predictive] at hp
    exact fun b hb => (opensMany hm h hp.2.2 b hb).imp .repeat_ fun h => ⟨.repeat_, h.2⟩
  | _, _, _, _, _, _, .repeat1 h hne, _, hp => by
    simp only [Format.Predictive] at hp
    exact fun b hb => (opensMany hm h hp.2.2 b hb).imp .repeat1 fun h => ⟨.repeat1 (h.1.resolve_left (by simpa using hne)), h.2⟩
  | _, _, _, _, _, _, .repeatCount hd h hl, _, hp => by
    simp only [Format.Predictive] at hp
    refine fun b hb => (opensMany hm h hp.2 b hb).imp .repeatCount fun h => ⟨?_, h.2⟩
    rcases h.1 with h0 | h0
    · refine .repeatCount_zero fun bd hbd => ?_
      have := (hp.1 _ _ _ hd hbd).1
      omega
    · exact .repeatCount_some h0
  | _, _, _, _, _, _, .repeatBetween .., _, hp => by simp only [Format.Predictive] at hp
  | _, _, _, _, _, _, .repeatUntilLast h _ _, _, hp => by
    simp only [Format.Predictive] at hp
    exact fun b hb => (opensMany hm h hp b hb).imp .repeatUntilLast fun h => ⟨.repeatUntilLast (h.1.resolve_left (by simp)), h.2⟩
  | _, _, _, _, _, _, .repeatUntilSeq h hne _ _, _, hp => by
    simp only [Format.Predictive] at hp
    exact fun b hb => (opensMany hm h hp b hb).imp .repeatUntilSeq fun h =>
      ⟨.repeatUntilSeq (h.1.resolve_left (by simpa using hne)), h.2⟩
  | _, _, _, _, _, _, .accumUntil _ h _, _, hp => by
    simp only [Format.Predictive] at hp
    exact fun b hb => (opensMany hm h hp b hb).imp .accumUntil fun h => ⟨.accumUntil, h.2⟩
  | _, _, _, _, _, _, .forEach _ h, _, hp => by
    simp only [Format.Predictive] at hp
    exact fun b hb => (opensEach hm h hp.2 b hb).imp .forEach fun h => ⟨.forEach, h.2⟩
  | _, _, _, _, _, _, .maybe_some _ h, _, hp => by
    simp only [Format.Predictive] at hp
    exact (opens hm h hp).pass (fun _ => .maybe) fun _ => .maybe
  | _, _, _, _, _, _, .maybe_none _, _, _ => .skip .maybe
  | _, _, _, _, _, _, .peek _, _, _ => .skip .peek
  | _, _, _, _, _, _, .peekNot h, _, _ => h.elim
  | _, _, _, _, _, _, .slice _ _ _, _, _ => fun _ _ => .inl .slice
  | _, _, _, _, _, _, .bits _ _, _, _ => fun _ _ => .inl .bits
  | _, _, _, _, _, _, .withRelativeOffset _ _ _ _, _, _ => .skip .withRelativeOffset
  | _, _, _, _, _, _, .map h _, _, hp => by
    simp only [Format.Predictive] at hp
    exact (opens hm h hp).pass (fun _ => .map) .map
  | _, _, _, _, _, _, .where_ h _, _, hp => by
    simp only [Format.Predictive] at hp
    exact (opens hm h hp).pass (fun _ => .where_) .where_
  | _, _, _, _, _, _, .where_lenient h _, _, hp => by
    simp only [Format.Predictive] at hp
    exact (opens hm h hp).pass (fun _ => .where_) .where_
  | _, _, _, _, _, _, .compute _, _, _ => .skip .compute
  | _, _, _, _, _, _, .let_ _ h, _, hp => by
    simp only [Format.Predictive] at hp
    exact (opens hm h hp).pass (fun _ => .let_) .let_
  | _, _, _, _, _, _, .match_ _ hi _ _ h, _, hp => by
    simp only [Format.Predictive] at hp
    have hmem := List.mem_of_getElem? hi
    exact (opens hm h (branches_get hp _ hmem)).pass (fun _ => .match_ hmem) (.match_ hmem)
  | _, _, _, _, _, _, .dynamic .., _, hp => by simp only [Format.Predictive] at hp
  | _, _, _, _, _, _, .apply .., _, hp => by simp only [Format.Predictive] at hp
  | _, _, _, _, _, _, .pos, _, _ => .skip .pos
  | _, _, _, _, _, _, .skipRemainder, _, _ => fun _ _ => .inl .skipRemainder
  | _, _, _, _, _, _, .decodeBytes _ _ _ _, _, _ => .skip .decodeBytes
  | _, _, _, _, _, _, .decodeBytes_trailing _ _ _ _, _, _ => .skip .decodeBytes
  | _, _, _, _, _, _, .letFormat h1 h2, _, hp => by
    simp only [Format.Predictive] at hp
    intro b hb
    rcases opens hm h1 hp.1 b hb with h | ⟨h, hb⟩
    · exact .inl (.letFormat h)
    · exact (opens hm h2 hp.2 b hb).imp (.letFormat_skip h) fun h' => ⟨.letFormat h h'.1, h'.2⟩
  | _, _, _, _, _, _, .monadSeq h1 h2, _, hp => by
    simp only [Format.Predictive] at hp
    intro b hb
    rcases opens hm h1 hp.1 b hb with h | ⟨h, hb⟩
    · exact .inl (.monadSeq h)
    · exact (opens hm h2 hp.2 b hb).imp (.monadSeq_skip h) fun h' => ⟨.monadSeq h h'.1, h'.2⟩
  | _, _, _, _, _, _, .hint h, _, hp => by
    simp only [Format.Predictive] at hp
    exact (opens hm h hp).pass (fun _ => .hint) .hint
  | _, _, _, _, _, _, .liftedNone, _, _ => .skip .liftedNone
  | _, _, _, _, _, _, .liftedSome h, _, hp => by
    simp only [Format.Predictive] at hp
    exact (opens hm h hp).pass (fun _ => .liftedSome) .liftedSome
  | _, _, _, _, _, _, .letView h, _, hp => by
    simp only [Format.Predictive] at hp
    exact (opens hm h hp).pass (fun _ => .letView) .letView
  | _, _, _, _, _, _, .captureBytes _ _ _, _, _ => .skip .captureBytes
  | _, _, _, _, _, _, .readArray _ _ _ _, _, _ => .skip .readArray
  | _, _, _, _, _, _, .reifyView _, _, _ => .skip .reifyView
  | _, _, _, _, _, _, .parseFromView _ _, _, _ => .skip .parseFromView
  | _, _, _, _, _, _, .phantom, _, _ => .skip .phantom
  | _, _, _, _, _, _, .enforce h, _, hp => by
    simp only [Format.Predictive] at hp
    exact (opens hm h hp).pass (fun _ => .enforce) .enforce
  | _, _, _, _, _, _, .permit h, _, hp => by
    simp only [Format.Predictive] at hp
    exact (opens hm h hp).pass (fun _ => .permit) .permit
  | _, _, _, _, _, _, .permit_fallback h _, _, _ => h.elim

theorem opensFields (hm : m.Predictive Φ tr sm) :
    ∀ {fs s c vs c' k}, ParsesFields m never fs s c vs c' k → ∀ {F}, Format.FieldsPredictive m Φ tr sm F fs →
      Opens m (.tuple fs) c c'
  | _, _, _, _, _, _, .fnil, _, _ => .skip (.tuple (by simp))
  | _, _, _, _, _, _, .fcons h1 h2, _, hp => by
    simp only [Format.FieldsPredictive] at hp
    intro b hb
    rw [starts_cons]
    rcases opens hm h1 hp.1 b hb with h | ⟨h, hb⟩
    · exact .inl (.inl h)
    · rcases opensFields hm h2 hp.2 b hb with h' | ⟨h', hb⟩
      · exact .inl (.inr ⟨h, h'⟩)
      · exact .inr ⟨.tuple (by simpa using ⟨h, skips_tuple.1 h'⟩), hb⟩

theorem opensMany (hm : m.Predictive Φ tr sm) :
    ∀ {f s c vs c' k}, ParsesMany m never f s c vs c' k → ∀ {F}, f.Predictive m Φ tr sm F → OpensMany m f c c' vs.length
  | _, _, _, _, _, _, .mnil, _, _ => fun _ hb => .inr ⟨.inl rfl, hb⟩
  | _, _, _, _, _, _, .mcons h1 h2, _, hp => by
    intro b hb
    rcases opens hm h1 hp b hb with h | ⟨h, hb⟩
    · exact .inl h
    · exact (opensMany hm h2 hp b hb).imp id fun h' => ⟨.inr h, h'.2⟩

theorem opensEach (hm : m.Predictive Φ tr sm) :
    ∀ {l f s is c vs c' k}, ParsesEach m never l f s is c vs c' k → ∀ {F}, f.Predictive m Φ tr sm F → OpensMany m f c c' vs.length
  | _, _, _, _, _, _, _, _, .enil, _, _ => fun _ hb => .inr ⟨.inl rfl, hb⟩
  | _, _, _, _, _, _, _, _, .econs h1 h2, _, hp => by
    intro b hb
    rcases opens hm h1 hp b hb with h | ⟨h, hb⟩
    · exact .inl h
    · exact (opensEach hm h2 hp b hb).imp id fun h' => ⟨.inr h, h'.2⟩
end

/-! ## What a derivation begins with, as the steps see it -/

/-- the step accepts, or has a branch for the byte at hand -/
def Live (s : Step) (c : ReadCtxt) : Prop := s.accept = true ∨ ∃ b, At c b ∧ Has s.branches b

/-- so does the step of a continuation -/
def Goes (m : Module) (x : Next) (c : ReadCtxt) : Prop := ∀ n s, Next.step m n x = .ok s → Live s c

theorem Goes.empty {c : ReadCtxt} : Goes m .empty c := by
  intro n s h
  cases n with
  | zero => simp [Next.step] at h
  | succ n => simp only [Next.step] at h; cases h; exact .inl rfl

theorem Goes.mk {x : Next} {c : ReadCtxt} (h : ∀ n s, Next.step m (n + 1) x = .ok s → Live s c) : Goes m x c := by
  intro n s hs
  cases n with
  | zero => simp [Next.step] at hs
  | succ n => exact h n s hs

theorem Goes.cat {f : Format} {x : Next} {c : ReadCtxt} (h : ∀ n s, Format.step m (n + 1) f x = .ok s → Live s c) :
    Goes m (.cat f x) c := by
  refine .mk fun n s hs => ?_
  simp only [Next.step] at hs
  cases n with
  | zero => simp [Format.step] at hs
  | succ n => exact h n s hs

theorem Goes.format {f : Format} {x : Next} {c : ReadCtxt} (h : Goes m (.cat f x) c) {n : Nat} {s : Step}
    (hs : Format.step m n f x = .ok s) : Live s c := h (n + 1) s (by simpa only [Next.step] using hs)

theorem Live.left {s t : Step} {c : ReadCtxt} (h : Live s c) : Live (s.union t) c :=
  h.imp (fun h => union_has.1.2 (.inl h)) fun ⟨b, h1, h2⟩ => ⟨b, h1, (union_has.2 b).2 (.inl h2)⟩

theorem Live.right {s t : Step} {c : ReadCtxt} (h : Live t c) : Live (s.union t) c :=
  h.imp (fun h => union_has.1.2 (.inr h)) fun ⟨b, h1, h2⟩ => ⟨b, h1, (union_has.2 b).2 (.inr h2)⟩

theorem Live.all {c : ReadCtxt} : Live .acceptAll c := .inl rfl

theorem Live.peek {s p : Step} {c : ReadCtxt} (h : Live s c) (h' : Live p c) : Live (s.peek p) c := by
  unfold Step.peek
  split
  · exact h
  · next hp =>
    split
    · exact h'
    · next hs =>
      obtain ⟨b, h1, ⟨bs, y⟩, h2, h3⟩ := h.resolve_left hs
      obtain ⟨b', h1', h2'⟩ := h'.resolve_left hp
      have : b = b' := Option.some.inj ((show _ = some b from h1).symm.trans h1')
      subst this
      obtain ⟨q, hq, hb⟩ := (peekBranch_has bs y b p.branches).2 ⟨h3, h2'⟩
      exact .inr ⟨b, h1, q, List.mem_flatMap.2 ⟨_, h2, hq⟩, hb⟩

theorem Live.unionAll {step : Format → Run Step} {fs : List Format} {s t : Step} {c : ReadCtxt} {f : Format}
    (h : Doodle.unionAll step s fs = .ok t) (hf : f ∈ fs) (hl : ∀ u, step f = .ok u → Live u c) : Live t c := by
  obtain ⟨h1, h2, h3⟩ := unionAll_has h
  obtain ⟨u, hu⟩ := h1 f hf
  exact (hl u hu).imp (fun h => h2.2 (.inr ⟨f, hf, u, hu, h⟩)) fun ⟨b, hb, h⟩ => ⟨b, hb, (h3 b).2 (.inr ⟨f, hf, u, hu, h⟩)⟩

mutual
theorem goes (hm : m.Predictive Φ tr sm) :
    ∀ {f s c v c' k}, Parses m never f s c v c' k → ∀ {F}, f.Predictive m Φ tr sm F → ∀ {x}, Goes m x c' → Goes m (.cat f x) c
  | _, _, _, _, _, _, .itemVar hi _ _ h, _, _, x, hx => .cat fun n s hs => by
    simp only [Format.step] at hs
    obtain ⟨it, h1, hs⟩ := Outcome.bind_eq_ok.1 hs
    have h1 := Compiler.unwrap_eq_ok.1 (Outcome.ofPanicky_eq_ok.1 h1)
    rw [hi] at h1
    cases h1
    exact (goes hm h (hm _ _ hi) hx).format hs
  | _, _, _, _, _, _, .endOfInput _, _, _, x, hx => .cat fun n s hs => by
    simp only [Format.step] at hs; cases hs; exact .all
  | _, _, c, _, _, _, .align (n := k) (o := o) h1 h2 h3 h4 h5, _, _, x, hx => .cat fun n s hs => by
    simp only [Format.step] at hs
    split at hs
    · cases hs
    · split at hs
      · have : o = c.offset := by omega
        subst this
        exact hx _ _ hs
      · cases hs; exact .all
  | _, _, _, _, _, _, .byte (b := b) h1 h2, _, _, x, hx => .cat fun n s hs => by
    simp only [Format.step] at hs
    cases hs
    exact .inr ⟨b, h1, Has.cons.2 (.inl h2)⟩
  | _, _, _, _, _, _, .variant h, _, hp, x, hx => .cat fun n s hs => by
    simp only [Format.Predictive, Format.step] at hp hs
    exact (goes hm h hp hx).format hs
  | _, _, _, _, _, _, .union hi h, _, hp, x, hx => .cat fun n s hs => by
    simp only [Format.Predictive, Format.step] at hp hs
    have hmem := List.mem_of_getElem? hi
    exact .unionAll hs hmem fun u hu => (goes hm h (each_get hp.1 _ hmem) hx).format hu
  | _, _, _, _, _, _, .unionNondet hi _ h, _, hp, x, hx => .cat fun n s hs => by
    simp only [Format.Predictive, Format.step] at hp hs
    have hmem := List.mem_of_getElem? hi
    exact .unionAll hs hmem fun u hu => (goes hm h (each_get hp _ hmem) hx).format hu
  | .tuple fs, _, _, _, _, _, .tuple h, _, hp, x, hx => .cat fun n s hs => by
    simp only [Format.Predictive] at hp
    have := goesFields hm h hp hx
    cases fs with
    | nil => simp only [Format.step] at hs; exact this (n + 1) s (by simpa only [Next.step] using hs)
    | cons f fs => simp only [Format.step] at hs; exact this (n + 1) s (by simpa only [Next.step] using hs)
  | .sequence fs, _, _, _, _, _, .sequence h, _, hp, x, hx => .cat fun n s hs => by
    simp only [Format.Predictive] at hp
    have := goesFields hm h hp hx
    cases fs with
    | nil => simp only [Format.step] at hs; exact this (n + 1) s (by simpa only [Next.step] using hs)
    | cons f fs => simp only [Format.step] at hs; exact this (n + 1) s (by simpa only [Next.step] using hs)
  | _, _, _, _, _, _, .repeat_ h, _, hp, x, hx => .cat fun n s hs => by
    simp only [Format.Predictive, Format.step] at hp hs
    exact (goesMany hm h hp.2.2).1 hx (n + 1) s (by simpa only [Next.step] using hs)
  | _, _, _, _, _, _, .repeat1 h hne, _, hp, x, hx => .cat fun n s hs => by
    simp only [Format.Predictive, Format.step] at hp hs
    exact ((goesMany hm h hp.2.2).2.1 hne hx).format hs
  | _, _, _, _, _, _, .repeatCount hd h hl, _, hp, x, hx => .cat fun n s hs => by
    simp only [Format.Predictive, Format.step] at hp hs
    obtain ⟨bd, h1, hs⟩ := Outcome.bind_eq_ok.1 hs
    have hk := hp.1 _ _ _ hd (Outcome.ofPanicky_eq_ok.1 h1)
    split at hs
    · next k he => exact (goesMany hm h hp.2).2.2 k (.inl ⟨by rw [hl, hk.2 k he], hx⟩) _ _ hs
    · exact (goesMany hm h hp.2).2.2 _ (.inr ⟨by omega, rfl⟩) _ _ hs
  | _, _, _, _, _, _, .repeatBetween .., _, hp, x, hx => by simp only [Format.Predictive] at hp
  | _, _, _, _, _, _, .repeatUntilLast .., _, hp, x, hx => .cat fun n s hs => by
    simp only [Format.step] at hs; cases hs; exact .all
  | _, _, _, _, _, _, .repeatUntilSeq .., _, hp, x, hx => .cat fun n s hs => by
    simp only [Format.step] at hs; cases hs; exact .all
  | _, _, _, _, _, _, .accumUntil .., _, hp, x, hx => .cat fun n s hs => by
    simp only [Format.step] at hs; cases hs; exact .all
  | _, _, _, _, _, _, .forEach _ h, _, hp, x, hx => .cat fun n s hs => by
    simp only [Format.Predictive, Format.step] at hp hs
    obtain ⟨t1, h1, hs⟩ := Outcome.bind_eq_ok.1 hs
    obtain ⟨bd, h2, hs⟩ := Outcome.bind_eq_ok.1 hs
    have h2 := Outcome.ofPanicky_eq_ok.1 h2
    split at hs
    · split at hs
      · next h0 => exact absurd h0 (hp.1 _ h2)
      · cases hs; exact .all
    · obtain ⟨t2, h3, hs⟩ := Outcome.bind_eq_ok.1 hs
      cases hs
      exact goesEach hm h hp.2 hx (n + 1) _ (by
        simp only [Next.step]
        exact Outcome.bind_eq_ok.2 ⟨_, h1, Outcome.bind_eq_ok.2 ⟨_, h3, rfl⟩⟩)
  | _, _, _, _, _, _, .maybe_some _ h, _, hp, x, hx => .cat fun n s hs => by
    simp only [Format.Predictive, Format.step] at hp hs
    obtain ⟨t1, h1, hs⟩ := Outcome.bind_eq_ok.1 hs
    obtain ⟨t2, h2, hs⟩ := Outcome.bind_eq_ok.1 hs
    cases hs
    exact ((goes hm h hp hx).format h1).left
  | _, _, _, _, _, _, .maybe_none _, _, hp, x, hx => .cat fun n s hs => by
    simp only [Format.step] at hs
    obtain ⟨t1, h1, hs⟩ := Outcome.bind_eq_ok.1 hs
    obtain ⟨t2, h2, hs⟩ := Outcome.bind_eq_ok.1 hs
    cases hs
    exact (hx _ _ h2).right
  | _, _, _, _, _, _, .peek h, _, hp, x, hx => .cat fun n s hs => by
    simp only [Format.Predictive, Format.step] at hp hs
    obtain ⟨t1, h1, hs⟩ := Outcome.bind_eq_ok.1 hs
    obtain ⟨t2, h2, hs⟩ := Outcome.bind_eq_ok.1 hs
    cases hs
    exact (hx _ _ h1).peek ((goes hm h hp .empty).format h2)
  | _, _, _, _, _, _, .peekNot h, _, _, x, hx => h.elim
  | _, _, _, _, _, _, .slice _ _ _, _, hp, x, hx => .cat fun n s hs => by
    simp only [Format.Predictive, Format.step] at hp hs
    obtain ⟨bd, h1, hs⟩ := Outcome.bind_eq_ok.1 hs
    have hk := hp.2.1 _ (Outcome.ofPanicky_eq_ok.1 h1)
    rw [hk.2, hk.1] at hs
    simp only [] at hs
    cases n with
    | zero => simp [Next.step] at hs
    | succ n =>
      simp only [Next.step, Nat.lt_irrefl, if_false] at hs
      exact Goes.empty _ _ hs
  | _, _, _, _, _, _, .bits _ _, _, _, x, hx => .cat fun n s hs => by
    simp only [Format.step] at hs; cases hs; exact .all
  | _, _, _, _, _, _, .withRelativeOffset _ _ _ _, _, _, x, hx => .cat fun n s hs => by
    simp only [Format.step] at hs; cases hs; exact .all
  | _, _, _, _, _, _, .map h _, _, hp, x, hx => .cat fun n s hs => by
    simp only [Format.Predictive, Format.step] at hp hs
    exact (goes hm h hp hx).format hs
  | _, _, _, _, _, _, .where_ h _, _, hp, x, hx => .cat fun n s hs => by
    simp only [Format.Predictive, Format.step] at hp hs
    exact (goes hm h hp hx).format hs
  | _, _, _, _, _, _, .where_lenient h _, _, hp, x, hx => .cat fun n s hs => by
    simp only [Format.Predictive, Format.step] at hp hs
    exact (goes hm h hp hx).format hs
  | _, _, _, _, _, _, .compute _, _, _, x, hx => .cat fun n s hs => by
    simp only [Format.step] at hs; exact hx _ _ hs
  | _, _, _, _, _, _, .let_ _ h, _, hp, x, hx => .cat fun n s hs => by
    simp only [Format.Predictive, Format.step] at hp hs
    exact (goes hm h hp hx).format hs
  | _, _, _, _, _, _, .match_ _ hi _ _ h, _, hp, x, hx => .cat fun n s hs => by
    simp only [Format.Predictive, Format.step] at hp hs
    have hmem := List.mem_of_getElem? hi
    exact .unionAll hs (List.mem_map.2 ⟨_, hmem, rfl⟩) fun u hu => (goes hm h (branches_get hp _ hmem) hx).format hu
  | _, _, _, _, _, _, .dynamic .., _, hp, x, hx => by simp only [Format.Predictive] at hp
  | _, _, _, _, _, _, .apply .., _, hp, x, hx => by simp only [Format.Predictive] at hp
  | _, _, _, _, _, _, .pos, _, _, x, hx => .cat fun n s hs => by
    simp only [Format.step] at hs; exact hx _ _ hs
  | _, _, _, _, _, _, .skipRemainder, _, _, x, hx => .cat fun n s hs => by
    simp only [Format.step] at hs; cases hs; exact .all
  | _, _, _, _, _, _, .decodeBytes _ _ _ _, _, _, x, hx => .cat fun n s hs => by
    simp only [Format.step] at hs; exact hx _ _ hs
  | _, _, _, _, _, _, .decodeBytes_trailing _ _ _ _, _, _, x, hx => .cat fun n s hs => by
    simp only [Format.step] at hs; exact hx _ _ hs
  | _, _, _, _, _, _, .letFormat h1 h2, _, hp, x, hx => .cat fun n s hs => by
    simp only [Format.Predictive, Format.step] at hp hs
    exact (goes hm h1 hp.1 (goes hm h2 hp.2 hx)).format hs
  | _, _, _, _, _, _, .monadSeq h1 h2, _, hp, x, hx => .cat fun n s hs => by
    simp only [Format.Predictive, Format.step] at hp hs
    exact (goes hm h1 hp.1 (goes hm h2 hp.2 hx)).format hs
  | _, _, _, _, _, _, .hint h, _, hp, x, hx => .cat fun n s hs => by
    simp only [Format.Predictive, Format.step] at hp hs
    exact (goes hm h hp hx).format hs
  | _, _, _, _, _, _, .liftedNone, _, _, x, hx => .cat fun n s hs => by
    simp only [Format.step] at hs; exact hx _ _ hs
  | _, _, _, _, _, _, .liftedSome h, _, hp, x, hx => .cat fun n s hs => by
    simp only [Format.Predictive, Format.step] at hp hs
    exact (goes hm h hp hx).format hs
  | _, _, _, _, _, _, .letView h, _, hp, x, hx => .cat fun n s hs => by
    simp only [Format.Predictive, Format.step] at hp hs
    exact (goes hm h hp hx).format hs
  | _, _, _, _, _, _, .captureBytes _ _ _, _, _, x, hx => .cat fun n s hs => by
    simp only [Format.step] at hs; exact hx _ _ hs
  | _, _, _, _, _, _, .readArray _ _ _ _, _, _, x, hx => .cat fun n s hs => by
    simp only [Format.step] at hs; exact hx _ _ hs
  | _, _, _, _, _, _, .reifyView _, _, _, x, hx => .cat fun n s hs => by
    simp only [Format.step] at hs; exact hx _ _ hs
  | _, _, _, _, _, _, .parseFromView _ _, _, _, x, hx => .cat fun n s hs => by
    simp only [Format.step] at hs; exact hx _ _ hs
  | _, _, _, _, _, _, .phantom, _, _, x, hx => .cat fun n s hs => by
    simp only [Format.step] at hs; cases hs; exact .all
  | _, _, _, _, _, _, .enforce h, _, hp, x, hx => .cat fun n s hs => by
    simp only [Format.Predictive, Format.step] at hp hs
    exact (goes hm h hp hx).format hs
  | _, _, _, _, _, _, .permit h, _, hp, x, hx => .cat fun n s hs => by
    simp only [Format.Predictive, Format.step] at hp hs
    exact (goes hm h hp hx).format hs
  | _, _, _, _, _, _, .permit_fallback h _, _, _, x, hx => h.elim

theorem goesFields (hm : m.Predictive Φ tr sm) :
    ∀ {fs s c vs c' k}, ParsesFields m never fs s c vs c' k → ∀ {F}, Format.FieldsPredictive m Φ tr sm F fs →
      ∀ {x}, Goes m x c' → Goes m (.sequence fs x) c
  | _, _, _, _, _, _, .fnil, _, _, x, hx => .mk fun n s hs => by
    simp only [Next.step] at hs; exact hx _ _ hs
  | _, _, _, _, _, _, .fcons h1 h2, _, hp, x, hx => .mk fun n s hs => by
    simp only [Format.FieldsPredictive, Next.step] at hp hs
    exact (goes hm h1 hp.1 (goesFields hm h2 hp.2 hx)).format hs

theorem goesMany (hm : m.Predictive Φ tr sm) :
    ∀ {f s c vs c' k}, ParsesMany m never f s c vs c' k → ∀ {F}, f.Predictive m Φ tr sm F →
      (∀ {x}, Goes m x c' → Goes m (.repeat_ f x) c) ∧
      (vs ≠ [] → ∀ {x}, Goes m x c' → Goes m (.cat f (.repeat_ f x)) c) ∧
      ∀ {x} j, (j = vs.length ∧ Goes m x c') ∨ (j ≤ vs.length ∧ x = .empty) → Goes m (.repeatCount j f x) c
  | _, _, _, _, _, _, .mnil, _, _ => by
    refine ⟨fun hx => .mk fun n s hs => ?_, fun h => absurd rfl h, fun {x} j hx => .mk fun n s hs => ?_⟩
    · simp only [Next.step] at hs
      obtain ⟨t1, h1, hs⟩ := Outcome.bind_eq_ok.1 hs
      obtain ⟨t2, h2, hs⟩ := Outcome.bind_eq_ok.1 hs
      cases hs
      exact (hx _ _ h1).left
    · simp only [Next.step] at hs
      rw [if_neg (by rcases hx with h | h <;> simp at h <;> omega)] at hs
      rcases hx with h | ⟨-, rfl⟩
      · exact h.2 _ _ hs
      · exact Goes.empty _ _ hs
  | f, _, _, _, _, _, .mcons h1 h2, _, hp => by
    obtain ⟨i1, -, i3⟩ := goesMany hm h2 hp
    have hc : ∀ {x}, Goes m x _ → Goes m (.cat f (.repeat_ f x)) _ := fun hx => goes hm h1 hp (i1 hx)
    refine ⟨fun hx => .mk fun n s hs => ?_, fun _ => hc, fun {x} j hx => .mk fun n s hs => ?_⟩
    · simp only [Next.step] at hs
      obtain ⟨t1, h3, hs⟩ := Outcome.bind_eq_ok.1 hs
      obtain ⟨t2, h4, hs⟩ := Outcome.bind_eq_ok.1 hs
      cases hs
      exact ((hc hx).format h4).right
    · simp only [Next.step] at hs
      split at hs
      · next hj =>
        refine (goes hm h1 hp (i3 (j - 1) ?_)).format hs
        rcases hx with ⟨e, hx⟩ | ⟨e, rfl⟩
        · exact .inl ⟨by simp at e; omega, hx⟩
        · exact .inr ⟨by simp at e; omega, rfl⟩
      · next hj =>
        rcases hx with ⟨e, hx⟩ | ⟨e, rfl⟩
        · simp at e; omega
        · exact Goes.empty _ _ hs

theorem goesEach (hm : m.Predictive Φ tr sm) :
    ∀ {l f s is c vs c' k}, ParsesEach m never l f s is c vs c' k → ∀ {F}, f.Predictive m Φ tr sm F →
      ∀ {x}, Goes m x c' → Goes m (.repeat_ f x) c
  | _, _, _, _, _, _, _, _, .enil, _, _, x, hx => .mk fun n s hs => by
    simp only [Next.step] at hs
    obtain ⟨t1, h1, hs⟩ := Outcome.bind_eq_ok.1 hs
    obtain ⟨t2, h2, hs⟩ := Outcome.bind_eq_ok.1 hs
    cases hs
    exact (hx _ _ h1).left
  | _, _, _, _, _, _, _, _, .econs h1 h2, _, hp, x, hx => .mk fun n s hs => by
    simp only [Next.step] at hs
    obtain ⟨t1, h3, hs⟩ := Outcome.bind_eq_ok.1 hs
    obtain ⟨t2, h4, hs⟩ := Outcome.bind_eq_ok.1 hs
    cases hs
    exact ((goes hm h1 hp (goesEach hm h2 hp hx)).format h4).right
end

/-! ## The tree -/

/-- the byte at the position, if there is one, is in the set -/
def Cont (F : UInt8 → Prop) (c : ReadCtxt) : Prop := ∀ b, At c b → F b

/-- The tree selects the alternative announced by the byte at hand. -/
theorem select1 {ord : HashOrder} (ho : ord.Valid) {n : Nat} {fs : List Format} {next : Next} {t : MatchTree}
    (ht : MatchTree.build m ord n fs next = .ok (some t)) {c : ReadCtxt} {i : Nat} {f : Format} (hi : fs[i]? = some f)
    (hg : Goes m (.cat f next) c)
    (hx : ∀ b, At c b → ∀ j g, fs[j]? = some g → j ≠ i → ¬ Begins m b (.cat g next)) : t.matches c = some i := by
  unfold MatchTree.matches
  have hi0 : (i, Next.cat f next) ∈ MatchTree.initial next 0 fs := mem_initial0.2 ⟨f, hi, rfl⟩
  rcases grow_cases ho ht with ⟨a, h1, -, h2⟩ | ⟨depth, l, -, hok, -, h3, h4, h5, h6, h7⟩
  · rw [h2]
    exact h1 _ hi0
  · obtain ⟨s, hs⟩ := h3 _ hi0
    have hl := hg _ _ hs
    have hacc : s.accept = true → l.accept = some i := fun h => (h5 i).2 ⟨_, s, hi0, hs, h⟩
    cases hr : c.input.drop c.offset with
    | nil =>
      rw [h6]
      refine hacc (hl.resolve_right ?_)
      rintro ⟨b, hb, -⟩
      have hb : _ = some b := hb
      have := (List.getElem?_eq_some_iff.1 hb).1
      have := congrArg List.length hr
      simp at this
      omega
    | cons b w =>
      have hb : At c b := by
        unfold At
        rw [← Nat.add_zero c.offset, ← List.getElem?_drop, hr]
        rfl
      have hto : ∀ e, To l.branches b e → e.1 = i := by
        rintro ⟨j, y⟩ he
        obtain ⟨x, s', hx', hs', hto⟩ := (h4 b _).1 he
        obtain ⟨g, hgj, rfl⟩ := mem_initial0.1 hx'
        refine Classical.byContradiction fun hne => hx b hb j g hgj hne ?_
        exact (step_begins b n).1 _ _ hs' (has_iff.2 ⟨y, hto⟩)
      rcases h7 b with ⟨h8, h9⟩ | ⟨p, bs, es, t', h8, h9, h10, h11, h12, h13⟩
      · rw [h8]
        refine hacc (hl.resolve_right ?_)
        rintro ⟨b', hb', hh⟩
        have : b = b' := Option.some.inj ((show _ = some b from hb).symm.trans hb')
        subst this
        obtain ⟨y, hy⟩ := has_iff.1 hh
        exact h9 (i, y) ((h4 b _).2 ⟨_, s, hi0, hs, hy⟩)
      · rw [h13]
        have hall : ∀ e ∈ es, e.1 = i := fun e he => hto e ((h11 e).1 he)
        obtain ⟨e, he⟩ : ∃ e, e ∈ es := List.exists_mem_of_ne_nil es h10
        rcases grow_cases ho h12 with ⟨a, k1, -, k2⟩ | ⟨_, _, -, -, ⟨e1, he1, e2, he2, hne⟩, _⟩
        · rw [k2, k1 e he, hall e he]
        · exact absurd ((hall e1 he1).trans (hall e2 he2).symm) hne

end Predictive
end Doodle
