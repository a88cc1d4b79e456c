import Verif.Spec.Words
import Verif.Lemmas.Tree

/-! One step of prefix-tree construction computes the derivatives of the languages of `Verif.Spec.Words`. -/

namespace Doodle

open Tree ByteSet

section
variable {m : Module} {E : Nat → Bool}

theorem words_cons {f : Format} {fs : List Format} {u : List UInt8} :
    Words m (f :: fs) u ↔ Cat (Word m f) (Words m fs) u :=
  ⟨fun h => by cases h with | cons h1 h2 => exact ⟨_, _, rfl, h1, h2⟩, fun ⟨_, _, e, h1, h2⟩ => e ▸ .cons h1 h2⟩

theorem words_nil {u : List UInt8} : Words m [] u ↔ u = [] :=
  ⟨fun h => by cases h; rfl, fun h => h ▸ .nil⟩

theorem power_succ {f : Format} {n : Nat} {u : List UInt8} :
    Power m f (n + 1) u ↔ Cat (Word m f) (Power m f n) u :=
  ⟨fun h => by cases h with | succ h1 h2 => exact ⟨_, _, rfl, h1, h2⟩, fun ⟨_, _, e, h1, h2⟩ => e ▸ .succ h1 h2⟩

theorem power_zero {f : Format} {u : List UInt8} : Power m f 0 u ↔ u = [] :=
  ⟨fun h => by cases h; rfl, fun h => h ▸ .zero⟩

variable {A A' B B' C : List UInt8 → Prop}

theorem Cat.congr (h : ∀ u, A u ↔ A' u) (h' : ∀ u, B u ↔ B' u) (w : List UInt8) : Cat A B w ↔ Cat A' B' w := by
  unfold Cat; simp only [h, h']

theorem Cat.assoc (w : List UInt8) : Cat (Cat A B) C w ↔ Cat A (Cat B C) w := by
  constructor
  · rintro ⟨_, v, rfl, ⟨u, u', rfl, ha, hb⟩, hc⟩
    exact ⟨u, u' ++ v, List.append_assoc .., ha, u', v, rfl, hb, hc⟩
  · rintro ⟨u, _, rfl, ha, u', v, rfl, hb, hc⟩
    exact ⟨u ++ u', v, (List.append_assoc ..).symm, ⟨u, u', rfl, ha, hb⟩, hc⟩

theorem Cat.nil_left (h : ∀ u, A u ↔ u = []) (w : List UInt8) : Cat A B w ↔ B w := by
  constructor
  · rintro ⟨u, v, rfl, ha, hb⟩; rw [(h u).1 ha]; exact hb
  · intro hb; exact ⟨[], w, rfl, (h _).2 rfl, hb⟩

theorem Cat.or_left (w : List UInt8) : Cat (fun u => A u ∨ A' u) B w ↔ Cat A B w ∨ Cat A' B w := by
  constructor
  · rintro ⟨u, v, rfl, ha | ha, hb⟩
    · exact .inl ⟨u, v, rfl, ha, hb⟩
    · exact .inr ⟨u, v, rfl, ha, hb⟩
  · rintro (⟨u, v, rfl, ha, hb⟩ | ⟨u, v, rfl, ha, hb⟩)
    · exact ⟨u, v, rfl, .inl ha, hb⟩
    · exact ⟨u, v, rfl, .inr ha, hb⟩

theorem follow_sequence {f : Format} {fs : List Format} {x : Next} (w : List UInt8) :
    Follow m (.sequence (f :: fs) x) w ↔ Cat (Word m f) (Follow m (.sequence fs x)) w := by
  unfold Follow
  rw [Cat.congr (fun u => words_cons) (fun _ => Iff.rfl), Cat.assoc]

theorem follow_repeat {f : Format} {x : Next} (w : List UInt8) :
    Follow m (.repeat_ f x) w ↔ Follow m x w ∨ Cat (Word m f) (Follow m (.repeat_ f x)) w := by
  rw [Follow]
  have : ∀ u, (∃ n, Power m f n u) ↔ u = [] ∨ Cat (Word m f) (fun v => ∃ n, Power m f n v) u := by
    intro u
    constructor
    · rintro ⟨n, h⟩
      cases n with
      | zero => exact .inl (power_zero.1 h)
      | succ n =>
        obtain ⟨a, b, e, h1, h2⟩ := power_succ.1 h
        exact .inr ⟨a, b, e, h1, n, h2⟩
    · rintro (rfl | ⟨a, b, rfl, h1, n, h2⟩)
      · exact ⟨0, .zero⟩
      · exact ⟨n + 1, .succ h1 h2⟩
  rw [Cat.congr this (fun _ => Iff.rfl), Cat.or_left, Cat.nil_left (fun _ => Iff.rfl), Cat.assoc]

theorem follow_count {f : Format} {x : Next} {n : Nat} (w : List UInt8) :
    Follow m (.repeatCount (n + 1) f x) w ↔ Cat (Word m f) (Follow m (.repeatCount n f x)) w := by
  unfold Follow
  rw [Cat.congr (fun u => power_succ) (fun _ => Iff.rfl), Cat.assoc]

theorem follow_max {f : Format} {x : Next} {n : Nat} (w : List UInt8) :
    Follow m (.repeatMax (n + 1) f x) w ↔ Follow m x w ∨ Cat (Word m f) (Follow m (.repeatMax n f x)) w := by
  change Cat (fun u => ∃ k, k ≤ n + 1 ∧ Power m f k u) (Follow m x) w ↔
    Follow m x w ∨ Cat (Word m f) (Cat (fun u => ∃ k, k ≤ n ∧ Power m f k u) (Follow m x)) w
  have : ∀ u, (∃ k, k ≤ n + 1 ∧ Power m f k u) ↔
      u = [] ∨ Cat (Word m f) (fun v => ∃ k, k ≤ n ∧ Power m f k v) u := by
    intro u
    constructor
    · rintro ⟨k, hk, h⟩
      cases k with
      | zero => exact .inl (power_zero.1 h)
      | succ k =>
        obtain ⟨a, b, e, h1, h2⟩ := power_succ.1 h
        exact .inr ⟨a, b, e, h1, k, by omega, h2⟩
    · rintro (rfl | ⟨a, b, rfl, h1, k, hk, h2⟩)
      · exact ⟨0, by omega, .zero⟩
      · exact ⟨k + 1, by omega, .succ h1 h2⟩
  rw [Cat.congr this (fun _ => Iff.rfl), Cat.or_left, Cat.nil_left (fun _ => Iff.rfl), Cat.assoc]

theorem follow_between {f : Format} {x : Next} {lo hi : Nat} (w : List UInt8) :
    Follow m (.repeatBetween (lo + 1) (hi + 1) f x) w ↔ Cat (Word m f) (Follow m (.repeatBetween lo hi f x)) w := by
  unfold Follow
  have : ∀ u, (∃ k, lo + 1 ≤ k ∧ k ≤ hi + 1 ∧ Power m f k u) ↔
      Cat (Word m f) (fun v => ∃ k, lo ≤ k ∧ k ≤ hi ∧ Power m f k v) u := by
    intro u
    constructor
    · rintro ⟨k, hk, hk', h⟩
      cases k with
      | zero => omega
      | succ k =>
        obtain ⟨a, b, e, h1, h2⟩ := power_succ.1 h
        exact ⟨a, b, e, h1, k, by omega, by omega, h2⟩
    · rintro ⟨a, b, rfl, h1, k, hk, hk', h2⟩
      exact ⟨k + 1, by omega, by omega, .succ h1 h2⟩
  rw [Cat.congr this (fun _ => Iff.rfl), Cat.assoc]

theorem follow_between_zero {f : Format} {x : Next} {hi : Nat} (w : List UInt8) :
    Follow m (.repeatBetween 0 hi f x) w ↔ Follow m (.repeatMax hi f x) w := by
  unfold Follow; simp

/-- a step computes the derivatives of a language -/
structure Exact (m : Module) (E : Nat → Bool) (L : List UInt8 → Prop) (s : Step) : Prop where
  accept : s.accept = true ↔ L []
  next : ∀ b u, L (b :: u) ↔ ∃ y, Step.To s b y ∧ Follow m y u
  keep : ∀ p ∈ s.branches, p.2.Plain m E

theorem Exact.congr {L L' : List UInt8 → Prop} {s : Step} (h : Exact m E L s) (e : ∀ u, L' u ↔ L u) : Exact m E L' s :=
  ⟨by rw [e]; exact h.accept, fun b u => by rw [e]; exact h.next b u, h.keep⟩

/-- some branch of the list leads on by `b` and then `u` -/
def Via (m : Module) (l : List (ByteSet × Next)) (b : UInt8) (u : List UInt8) : Prop :=
  ∃ bs y, (bs, y) ∈ l ∧ bs.contains b = true ∧ Follow m y u

theorem Via.cons {p : ByteSet × Next} {l b u} :
    Via m (p :: l) b u ↔ (p.1.contains b = true ∧ Follow m p.2 u) ∨ Via m l b u := by
  obtain ⟨bs, y⟩ := p
  constructor
  · rintro ⟨bs', y', h, hb, hf⟩
    rcases List.mem_cons.1 h with h | h
    · cases h; exact .inl ⟨hb, hf⟩
    · exact .inr ⟨bs', y', h, hb, hf⟩
  · rintro (⟨hb, hf⟩ | ⟨bs', y', h, hb, hf⟩)
    · exact ⟨bs, y, List.mem_cons_self, hb, hf⟩
    · exact ⟨bs', y', List.mem_cons_of_mem _ h, hb, hf⟩

theorem Via.append {l l' : List (ByteSet × Next)} {b u} : Via m (l ++ l') b u ↔ Via m l b u ∨ Via m l' b u := by
  induction l with
  | nil => simp [Via]
  | cons p l ih => rw [List.cons_append, Via.cons, Via.cons, ih, or_assoc]

theorem Via.nil {b u} : ¬ Via m [] b u := fun ⟨_, _, h, _⟩ => nomatch h

theorem via_iff {s : Step} {b u} : (∃ y, Step.To s b y ∧ Follow m y u) ↔ Via m s.branches b u := by
  constructor
  · rintro ⟨y, ⟨bs, hm, hb⟩, hf⟩; exact ⟨bs, y, hm, hb, hf⟩
  · rintro ⟨bs, y, hm, hb, hf⟩; exact ⟨y, ⟨bs, hm, hb⟩, hf⟩

theorem split_via (x : Next) : ∀ (l : List (ByteSet × Next)) (bs : ByteSet) (b : UInt8) (u : List UInt8),
    (Via m (Step.splitBranches x bs l).1 b u ∨ Via m (Step.splitBranches x bs l).2.2 b u ∨
      ((Step.splitBranches x bs l).2.1.contains b = true ∧ Follow m x u)) ↔
    Via m l b u ∨ (bs.contains b = true ∧ Follow m x u)
  | [], bs, b, u => by simp [Step.splitBranches, Via]
  | (bs0, y) :: l, bs, b, u => by
    simp only [Step.splitBranches]
    split
    · have ih := split_via x l bs b u
      rw [Via.cons, Via.cons, or_assoc, ih, or_assoc]
    · have ih := split_via x l (bs.difference (bs0.intersection bs)) b u
      have hq : Via m (if (bs0.difference bs).isEmpty then (Step.splitBranches x (bs.difference (bs0.intersection bs)) l).2.2
          else (bs0.difference bs, y) :: (Step.splitBranches x (bs.difference (bs0.intersection bs)) l).2.2) b u ↔
          ((bs0.contains b = true ∧ ¬ bs.contains b = true) ∧ Follow m y u) ∨
            Via m (Step.splitBranches x (bs.difference (bs0.intersection bs)) l).2.2 b u := by
        split
        · next he =>
          rw [C01_isEmpty] at he
          have := he b
          rw [C01_contains_difference] at this
          constructor
          · exact .inr
          · rintro (h | h)
            · exact absurd h.1 this
            · exact h
        · rw [Via.cons]
          simp only [C01_contains_difference]
      rw [hq, Via.cons, Via.cons]
      simp only [C01_contains_intersection, C01_contains_difference] at ih ⊢
      simp only [Follow]
      by_cases h1 : bs0.contains b = true <;> by_cases h2 : bs.contains b = true <;>
        simp only [h1, h2, true_and, false_and, and_true, and_false, not_true_eq_false, not_false_eq_true, false_or,
          or_false, Bool.false_eq_true] at ih ⊢ <;> grind

theorem split_plain {x : Next} (hx : x.Plain m E) : ∀ {l : List (ByteSet × Next)} {bs : ByteSet}, (∀ p ∈ l, p.2.Plain m E) →
    (∀ p ∈ (Step.splitBranches x bs l).1, p.2.Plain m E) ∧ ∀ p ∈ (Step.splitBranches x bs l).2.2, p.2.Plain m E
  | [], bs, _ => ⟨(fun _ h => nomatch h), (fun _ h => nomatch h)⟩
  | (bs0, y) :: l, bs, h => by
    have h0 := h _ List.mem_cons_self
    have hl : ∀ p ∈ l, p.2.Plain m E := fun p hp => h p (List.mem_cons_of_mem _ hp)
    simp only [Step.splitBranches]
    split
    · have ih := split_plain hx (bs := bs) hl
      refine ⟨fun p hp => ?_, ih.2⟩
      rcases List.mem_cons.1 hp with rfl | hp
      · exact h0
      · exact ih.1 p hp
    · have ih := split_plain hx (bs := bs.difference (bs0.intersection bs)) hl
      refine ⟨fun p hp => ?_, fun p hp => ?_⟩
      · rcases List.mem_cons.1 hp with rfl | hp
        · exact ⟨h0, hx⟩
        · exact ih.1 p hp
      · split at hp
        · exact ih.2 p hp
        · rcases List.mem_cons.1 hp with rfl | hp
          · exact h0
          · exact ih.2 p hp

theorem unionBranch_via (s : Step) (bs : ByteSet) (x : Next) (b : UInt8) (u : List UInt8) :
    Via m (s.unionBranch bs x).branches b u ↔ Via m s.branches b u ∨ (bs.contains b = true ∧ Follow m x u) := by
  rw [← split_via x s.branches bs b u]
  unfold Step.unionBranch
  dsimp only
  generalize Step.splitBranches x bs s.branches = r
  rw [Via.append, Via.append]
  have : Via m (if r.2.1.isEmpty then [] else [(r.2.1, x)]) b u ↔ r.2.1.contains b = true ∧ Follow m x u := by
    split
    · next he =>
      rw [C01_isEmpty] at he
      exact ⟨fun h => absurd h Via.nil, fun h => absurd h.1 (he b)⟩
    · rw [Via.cons]; simp [Via.nil]
  rw [this, or_assoc]
  exact or_congr Iff.rfl or_comm

theorem unionBranch_plain {s : Step} {bs : ByteSet} {x : Next} (hx : x.Plain m E) (hs : ∀ p ∈ s.branches, p.2.Plain m E) :
    ∀ p ∈ (s.unionBranch bs x).branches, p.2.Plain m E := by
  intro p hp
  have := split_plain hx (bs := bs) hs
  unfold Step.unionBranch at hp
  simp only [List.mem_append] at hp
  rcases hp with (hp | hp) | hp
  · exact this.1 p hp
  · split at hp
    · cases hp
    · rw [List.mem_singleton] at hp; subst hp; exact hx
  · exact this.2 p hp

theorem unionBranches_via : ∀ (l : List (ByteSet × Next)) (s : Step), (∀ p ∈ l, p.2.Plain m E) →
    (∀ p ∈ s.branches, p.2.Plain m E) →
    (Step.unionBranches s l).accept = s.accept ∧
    (∀ b u, Via m (Step.unionBranches s l).branches b u ↔ Via m s.branches b u ∨ Via m l b u) ∧
    ∀ p ∈ (Step.unionBranches s l).branches, p.2.Plain m E
  | [], s, _, hs => ⟨rfl, fun b u => by simp [Step.unionBranches, Via.nil], hs⟩
  | (bs, x) :: l, s, hl, hs => by
    have hx := hl _ List.mem_cons_self
    have ih := unionBranches_via l (s.unionBranch bs x) (fun p hp => hl p (List.mem_cons_of_mem _ hp))
      (unionBranch_plain hx hs)
    refine ⟨ih.1, fun b u => ?_, ih.2.2⟩
    rw [Step.unionBranches, ih.2.1, unionBranch_via, Via.cons, or_assoc]

theorem Exact.union {A B : List UInt8 → Prop} {s t : Step} (h : Exact m E A s) (h' : Exact m E B t) :
    Exact m E (fun u => A u ∨ B u) (s.union t) := by
  have := unionBranches_via t.branches { s with accept := s.accept || t.accept } h'.keep h.keep
  refine ⟨?_, fun b u => ?_, this.2.2⟩
  · unfold Step.union
    rw [this.1]
    simp only [Bool.or_eq_true, h.accept, h'.accept]
  · rw [via_iff, h.next, h'.next, via_iff, via_iff]
    exact (this.2.1 b u).symm

theorem Exact.reject : Exact m E (fun _ => False) Step.reject :=
  ⟨by simp [Step.reject], fun b u => by rw [via_iff]; simp [Step.reject, Via], (fun _ h => nomatch h)⟩

theorem Exact.acceptAll : Exact m E (fun u => u = []) Step.acceptAll :=
  ⟨by simp [Step.acceptAll], fun b u => by rw [via_iff]; simp [Step.acceptAll, Via], (fun _ h => nomatch h)⟩

theorem unionAll_exact {step : Format → Run Step} {L : Format → List UInt8 → Prop} :
    ∀ {fs : List Format} {A : List UInt8 → Prop} {s t : Step}, (∀ f ∈ fs, ∀ s, step f = .ok s → Exact m E (L f) s) →
      Exact m E A s → unionAll step s fs = .ok t → Exact m E (fun u => A u ∨ ∃ f ∈ fs, L f u) t
  | [], A, s, t, _, h, ht => by
    cases ht
    exact h.congr fun u => by simp
  | f :: fs, A, s, t, hf, h, ht => by
    simp only [unionAll] at ht
    obtain ⟨s1, h1, ht⟩ := Outcome.bind_eq_ok.1 ht
    have := unionAll_exact (fun g hg => hf g (List.mem_cons_of_mem _ hg)) (h.union (hf f List.mem_cons_self s1 h1)) ht
    exact this.congr fun u => by simp [or_assoc]

mutual
theorem Format.Plain.mono {k k' : Nat} (h : k ≤ k') {a b : Bool} (hl : a = true → b = true) :
    ∀ {f : Format}, f.Plain m E k a → f.Plain m E k' b
  | .itemVar level _ _, hf => by
    simp only [Format.Plain] at hf ⊢; exact ⟨by omega, hf.2.1, fun h => hl (hf.2.2 h)⟩
  | .endOfInput, hf => by simp only [Format.Plain] at hf ⊢; exact hl hf
  | .byte _, hf => hf
  | .variant _ f, hf => by simp only [Format.Plain] at hf ⊢; exact Format.Plain.mono h hl hf
  | .maybe _ f, hf => by simp only [Format.Plain] at hf ⊢; exact Format.Plain.mono h hl hf
  | .map f _, hf => by simp only [Format.Plain] at hf ⊢; exact Format.Plain.mono h hl hf
  | .where_ f _ _, hf => by simp only [Format.Plain] at hf ⊢; exact Format.Plain.mono h hl hf
  | .let_ _ _ f, hf => by simp only [Format.Plain] at hf ⊢; exact Format.Plain.mono h hl hf
  | .hint f, hf => by simp only [Format.Plain] at hf ⊢; exact Format.Plain.mono h hl hf
  | .liftedSome f, hf => by simp only [Format.Plain] at hf ⊢; exact Format.Plain.mono h hl hf
  | .letView _ f, hf => by simp only [Format.Plain] at hf ⊢; exact Format.Plain.mono h hl hf
  | .enforce f, hf => by simp only [Format.Plain] at hf ⊢; exact Format.Plain.mono h hl hf
  | .permit f _, hf => by simp only [Format.Plain] at hf ⊢; exact Format.Plain.mono h hl hf
  | .union fs, hf => by simp only [Format.Plain] at hf ⊢; exact ⟨hf.1, Format.EachPlain.mono h hl hf.2⟩
  | .unionNondet fs, hf => by simp only [Format.Plain] at hf ⊢; exact ⟨hf.1, Format.EachPlain.mono h hl hf.2⟩
  | .tuple fs, hf => by simp only [Format.Plain] at hf ⊢; exact Format.FieldsPlain.mono h hl hf
  | .sequence fs, hf => by simp only [Format.Plain] at hf ⊢; exact Format.FieldsPlain.mono h hl hf
  | .repeat_ f, hf => by simp only [Format.Plain] at hf ⊢; exact Format.Plain.mono h id hf
  | .repeat1 f, hf => by simp only [Format.Plain] at hf ⊢; exact Format.Plain.mono h id hf
  | .repeatCount e f, hf => by simp only [Format.Plain] at hf ⊢; exact ⟨hf.1, Format.Plain.mono h id hf.2⟩
  | .repeatBetween x y f, hf => by simp only [Format.Plain] at hf ⊢; exact ⟨hf.1, Format.Plain.mono h id hf.2⟩
  | .match_ _ bs, hf => by simp only [Format.Plain] at hf ⊢; exact ⟨hf.1, Format.BranchesPlain.mono h hl hf.2⟩
  | .letFormat f _ g, hf => by simp only [Format.Plain] at hf ⊢; exact ⟨Format.Plain.mono h id hf.1, Format.Plain.mono h hl hf.2⟩
  | .monadSeq f g, hf => by simp only [Format.Plain] at hf ⊢; exact ⟨Format.Plain.mono h id hf.1, Format.Plain.mono h hl hf.2⟩
  | .compute _, _ => by simp only [Format.Plain]
  | .liftedNone, _ => by simp only [Format.Plain]
  | .pos, _ => by simp only [Format.Plain]
  | .captureBytes _ _, _ => by simp only [Format.Plain]
  | .readArray _ _ _, _ => by simp only [Format.Plain]
  | .reifyView _, _ => by simp only [Format.Plain]
  | .decodeBytes _ _, _ => by simp only [Format.Plain]
  | .parseFromView _ _, _ => by simp only [Format.Plain]
  | .phantom _, hf => by simp only [Format.Plain] at hf
  | .fail, hf => by simp only [Format.Plain] at hf
  | .skipRemainder, hf => by simp only [Format.Plain] at hf
  | .align _, hf => by simp only [Format.Plain] at hf
  | .forEach _ _ _, hf => by simp only [Format.Plain] at hf
  | .repeatUntilLast _ _, hf => by simp only [Format.Plain] at hf
  | .repeatUntilSeq _ _, hf => by simp only [Format.Plain] at hf
  | .accumUntil _ _ _ _ _, hf => by simp only [Format.Plain] at hf
  | .peek _, hf => by simp only [Format.Plain] at hf
  | .peekNot _, hf => by simp only [Format.Plain] at hf
  | .slice _ _, hf => by simp only [Format.Plain] at hf
  | .bits _, hf => by simp only [Format.Plain] at hf
  | .withRelativeOffset _ _ _, hf => by simp only [Format.Plain] at hf
  | .dynamic _ _ _ _, hf => by simp only [Format.Plain] at hf
  | .apply _, hf => by simp only [Format.Plain] at hf

theorem Format.EachPlain.mono {k k' : Nat} (h : k ≤ k') {a b : Bool} (hl : a = true → b = true) :
    ∀ {fs : List Format}, Format.EachPlain m E k a fs → Format.EachPlain m E k' b fs
  | [], _ => by simp only [Format.EachPlain]
  | f :: fs, hf => by
    simp only [Format.EachPlain] at hf ⊢; exact ⟨Format.Plain.mono h hl hf.1, Format.EachPlain.mono h hl hf.2⟩

theorem Format.FieldsPlain.mono {k k' : Nat} (h : k ≤ k') {a b : Bool} (hl : a = true → b = true) :
    ∀ {fs : List Format}, Format.FieldsPlain m E k a fs → Format.FieldsPlain m E k' b fs
  | [], _ => by simp only [Format.FieldsPlain]
  | f :: fs, hf => by
    simp only [Format.FieldsPlain] at hf ⊢
    refine ⟨Format.Plain.mono h ?_ hf.1, Format.FieldsPlain.mono h hl hf.2⟩
    simp only [Bool.and_eq_true]
    exact fun h => ⟨h.1, hl h.2⟩

theorem Format.BranchesPlain.mono {k k' : Nat} (h : k ≤ k') {a b : Bool} (hl : a = true → b = true) :
    ∀ {fs : List (Pattern × Format)}, Format.BranchesPlain m E k a fs → Format.BranchesPlain m E k' b fs
  | [], _ => by simp only [Format.BranchesPlain]
  | (_, f) :: fs, hf => by
    simp only [Format.BranchesPlain] at hf ⊢; exact ⟨Format.Plain.mono h hl hf.1, Format.BranchesPlain.mono h hl hf.2⟩
end

/-- nothing follows -/
theorem isDone_follow : ∀ {x : Next}, x.isDone = true → ∀ u, Follow m x u ↔ u = []
  | .empty, _, u => Iff.rfl
  | .union a b, h, u => by
    simp only [Next.isDone, Bool.and_eq_true] at h
    simp only [Follow, isDone_follow h.1, isDone_follow h.2, or_self]
  | .sequence fs x, h, u => by
    simp only [Next.isDone, Bool.and_eq_true, List.isEmpty_iff] at h
    obtain ⟨rfl, h⟩ := h
    simp only [Follow]
    rw [Cat.nil_left fun _ => words_nil]
    exact isDone_follow h u
  | .cat _ _, h, _ => by cases h
  | .repeat_ _ _, h, _ => by cases h
  | .repeatCount _ _ _, h, _ => by cases h
  | .repeatMax _ _ _, h, _ => by cases h
  | .repeatBetween _ _ _ _, h, _ => by cases h
  | .slice _ _ _, h, _ => by cases h
  | .peek _ _, h, _ => by cases h
  | .peekNot _ _, h, _ => by cases h

theorem Format.EachPlain.get {k : Nat} {a : Bool} {fs : List Format} (h : Format.EachPlain m E k a fs) :
    ∀ f ∈ fs, f.Plain m E k a := by
  induction fs with
  | nil => intro f hf; cases hf
  | cons g fs ih =>
    simp only [Format.EachPlain] at h
    intro f hf
    rcases List.mem_cons.1 hf with rfl | hf
    · exact h.1
    · exact ih h.2 f hf

theorem Format.BranchesPlain.get {k : Nat} {a : Bool} {fs : List (Pattern × Format)} (h : Format.BranchesPlain m E k a fs) :
    ∀ p ∈ fs, p.2.Plain m E k a := by
  induction fs with
  | nil => intro f hf; cases hf
  | cons g fs ih =>
    obtain ⟨q, g⟩ := g
    simp only [Format.BranchesPlain] at h
    intro f hf
    rcases List.mem_cons.1 hf with rfl | hf
    · exact h.1
    · exact ih h.2 f hf

/-- A format with an inner format that has the same words. -/
theorem cat_congr_left {f g : Format} {x : Next} (h : ∀ u, Word m f u ↔ Word m g u) (u : List UInt8) :
    Cat (Word m f) (Follow m x) u ↔ Cat (Word m g) (Follow m x) u := Cat.congr h (fun _ => Iff.rfl) u

theorem cat_nil_left {f : Format} {x : Next} (h : ∀ u, Word m f u ↔ u = []) (u : List UInt8) :
    Cat (Word m f) (Follow m x) u ↔ Follow m x u := Cat.nil_left h u

theorem cat_tuple {f : Format} {fs : List Format} {x : Next} {g : Format} (h : ∀ u, Word m g u ↔ Words m (f :: fs) u)
    (u : List UInt8) : Cat (Word m g) (Follow m x) u ↔ Cat (Word m f) (Follow m (.sequence fs x)) u := by
  rw [Cat.congr h (fun _ => Iff.rfl)]
  exact follow_sequence u

/-- both step functions are exact -/
theorem step_exact (hm : m.Plain E) : ∀ n,
    (∀ x s, x.Plain m E → Next.step m n x = .ok s → Exact m E (Follow m x) s) ∧
    (∀ f x s, f.Plain m E m.items.length x.isDone → x.Plain m E → Format.step m n f x = .ok s →
      Exact m E (Cat (Word m f) (Follow m x)) s) := by
  intro n
  induction n with
  | zero => exact ⟨(fun x s _ h => nomatch h), (fun f x s _ _ h => nomatch h)⟩
  | succ n ih =>
    obtain ⟨ihn, ihf⟩ := ih
    constructor
    · intro x s hx h
      unfold Next.step at h
      cases x with
      | empty => cases h; exact Exact.acceptAll
      | union a b =>
        obtain ⟨t1, h1, h⟩ := Outcome.bind_eq_ok.1 h
        obtain ⟨t2, h2, h⟩ := Outcome.bind_eq_ok.1 h
        cases h
        exact (ihn a t1 hx.1 h1).union (ihn b t2 hx.2 h2)
      | cat f x => exact ihf f x s hx.1 hx.2 h
      | sequence fs x =>
        cases fs with
        | nil => exact (ihn x s hx.2 h).congr (Cat.nil_left fun _ => words_nil)
        | cons f fs =>
          have hp : f.Plain m E m.items.length (fs.isEmpty && x.isDone) ∧
              Format.FieldsPlain m E m.items.length x.isDone fs := by
            have := hx.1; simpa only [Format.FieldsPlain] using this
          exact (ihf f (.sequence fs x) s hp.1 ⟨hp.2, hx.2⟩ h).congr follow_sequence
      | repeat_ f x =>
        obtain ⟨t1, h1, h⟩ := Outcome.bind_eq_ok.1 h
        obtain ⟨t2, h2, h⟩ := Outcome.bind_eq_ok.1 h
        cases h
        exact ((ihn x t1 hx.2 h1).union (ihf f (.repeat_ f x) t2 hx.1 hx h2)).congr follow_repeat
      | repeatCount k f x =>
        simp only [] at h
        cases k with
        | zero => exact (ihn x s hx.2 h).congr (Cat.nil_left fun _ => power_zero)
        | succ k =>
          rw [if_pos (by omega)] at h
          exact (ihf f (.repeatCount k f x) s hx.1 hx h).congr follow_count
      | repeatMax k f x =>
        simp only [] at h
        cases k with
        | zero =>
          rw [if_pos rfl] at h
          exact (ihn x s hx.2 h).congr (Cat.nil_left fun u => by simp [power_zero])
        | succ k =>
          rw [if_neg (by omega)] at h
          obtain ⟨t1, h1, h⟩ := Outcome.bind_eq_ok.1 h
          obtain ⟨t2, h2, h⟩ := Outcome.bind_eq_ok.1 h
          cases h
          exact ((ihn x t1 hx.2 h1).union (ihf f (.repeatMax k f x) t2 hx.1 hx h2)).congr follow_max
      | repeatBetween lo hi f x =>
        simp only [] at h
        split at h
        · cases h
        · split at h
          · split at h
            · cases h
            · obtain ⟨lo, rfl⟩ : ∃ k, lo = k + 1 := ⟨lo - 1, by omega⟩
              obtain ⟨hi, rfl⟩ : ∃ k, hi = k + 1 := ⟨hi - 1, by omega⟩
              have := hx.1
              exact (ihf f (.repeatBetween lo hi f x) s hx.2.1 ⟨by omega, hx.2⟩ h).congr follow_between
          · obtain rfl : lo = 0 := by omega
            exact (ihn (.repeatMax hi f x) s hx.2 h).congr follow_between_zero
      | slice => exact absurd hx id
      | peek => exact absurd hx id
      | peekNot => exact absurd hx id
    · intro f x s hf hx h
      unfold Format.step at h
      cases f with
      | itemVar level args views =>
        simp only [Format.Plain] at hf
        obtain ⟨it, h1, h⟩ := Outcome.bind_eq_ok.1 h
        have h1 := Outcome.ofPanicky_eq_ok.1 h1
        unfold Module.get at h1
        cases hi : m.items[level]? with
        | none => rw [hi] at h1; cases h1
        | some it' =>
          rw [hi] at h1
          cases h1
          refine (ihf it.format x s (Format.Plain.mono (by omega) hf.2.2 (hm level it hi)) hx h).congr (cat_congr_left fun u => ?_)
          constructor
          · intro hw; cases hw with | itemVar h1 h2 => rw [hi] at h1; cases h1; exact h2
          · exact .itemVar hi
      | endOfInput =>
        simp only [Format.Plain] at hf
        cases h
        exact Exact.acceptAll.congr fun u => by
          rw [cat_nil_left fun u => ⟨fun h => by cases h; rfl, fun h => h ▸ .endOfInput⟩]
          exact isDone_follow hf u
      | byte bs =>
        cases h
        refine ⟨?_, ?_, ?_⟩
        · constructor
          · intro h; cases h
          · rintro ⟨u, v, e, hw, _⟩; cases hw; cases e
        · intro b u
          rw [via_iff]
          simp only [Step.branch]
          rw [Via.cons]
          constructor
          · rintro ⟨u', v, e, hw, hv⟩
            cases hw with
            | byte hb => cases e; exact .inl ⟨hb, hv⟩
          · rintro (⟨hb, hv⟩ | h)
            · exact ⟨[b], u, rfl, .byte hb, hv⟩
            · exact absurd h Via.nil
        · intro p hp
          simp only [Step.branch, List.mem_singleton] at hp
          subst hp
          exact hx
      | variant l f =>
        simp only [Format.Plain] at hf
        exact (ihf f x s hf hx h).congr (cat_congr_left fun u => ⟨fun h => by cases h; assumption, .variant⟩)
      | union fs =>
        simp only [Format.Plain] at hf
        refine (unionAll_exact (L := fun f => Cat (Word m f) (Follow m x))
          (fun f hfm s hs => ihf f x s (hf.2.get f hfm) hx hs) Exact.reject h).congr fun u => ?_
        simp only [false_or]
        constructor
        · rintro ⟨a, b, rfl, hw, hb⟩
          cases hw with | union h1 h2 => exact ⟨_, h1, a, b, rfl, h2, hb⟩
        · rintro ⟨f, hfm, a, b, rfl, hw, hb⟩; exact ⟨a, b, rfl, .union hfm hw, hb⟩
      | unionNondet fs =>
        simp only [Format.Plain] at hf
        refine (unionAll_exact (L := fun f => Cat (Word m f) (Follow m x))
          (fun f hfm s hs => ihf f x s (hf.2.get f hfm) hx hs) Exact.reject h).congr fun u => ?_
        simp only [false_or]
        constructor
        · rintro ⟨a, b, rfl, hw, hb⟩
          cases hw with | unionNondet h1 h2 => exact ⟨_, h1, a, b, rfl, h2, hb⟩
        · rintro ⟨f, hfm, a, b, rfl, hw, hb⟩; exact ⟨a, b, rfl, .unionNondet hfm hw, hb⟩
      | tuple fs =>
        simp only [Format.Plain] at hf
        cases fs with
        | nil => exact (ihn x s hx h).congr (cat_nil_left fun u =>
            ⟨fun h => by cases h with | tuple h => exact words_nil.1 h, fun h => .tuple (words_nil.2 h)⟩)
        | cons f fs =>
          simp only [Format.FieldsPlain] at hf
          exact (ihf f (.sequence fs x) s hf.1 ⟨hf.2, hx⟩ h).congr (cat_tuple fun u =>
            ⟨fun h => by cases h; assumption, .tuple⟩)
      | sequence fs =>
        simp only [Format.Plain] at hf
        cases fs with
        | nil => exact (ihn x s hx h).congr (cat_nil_left fun u =>
            ⟨fun h => by cases h with | sequence h => exact words_nil.1 h, fun h => .sequence (words_nil.2 h)⟩)
        | cons f fs =>
          simp only [Format.FieldsPlain] at hf
          exact (ihf f (.sequence fs x) s hf.1 ⟨hf.2, hx⟩ h).congr (cat_tuple fun u =>
            ⟨fun h => by cases h; assumption, .sequence⟩)
      | repeat_ f =>
        simp only [Format.Plain] at hf
        obtain ⟨t1, h1, h⟩ := Outcome.bind_eq_ok.1 h
        obtain ⟨t2, h2, h⟩ := Outcome.bind_eq_ok.1 h
        cases h
        refine ((ihn x t1 hx h1).union (ihf f (.repeat_ f x) t2 hf ⟨hf, hx⟩ h2)).congr fun u => ?_
        rw [← follow_repeat]
        exact Cat.congr (fun u => ⟨fun h => by cases h with | repeat_ h => exact ⟨_, h⟩, fun ⟨n, h⟩ => .repeat_ h⟩) (fun _ => Iff.rfl) u
      | repeat1 f =>
        simp only [Format.Plain] at hf
        refine (ihf f (.repeat_ f x) s hf ⟨hf, hx⟩ h).congr fun u => ?_
        rw [show Follow m (.repeat_ f x) = Cat (fun u => ∃ n, Power m f n u) (Follow m x) from rfl, ← Cat.assoc]
        refine Cat.congr (fun u => ?_) (fun _ => Iff.rfl) u
        constructor
        · intro h
          cases h with
          | repeat1 h =>
            obtain ⟨a, b, e, h1, h2⟩ := power_succ.1 h
            exact ⟨a, b, e, h1, _, h2⟩
        · rintro ⟨a, b, rfl, h1, n, h2⟩
          exact .repeat1 (.succ h1 h2)
      | repeatCount e f =>
        simp only [Format.Plain] at hf
        obtain ⟨⟨b, k, hb, hk⟩, hf⟩ := hf
        obtain ⟨b', h1, h⟩ := Outcome.bind_eq_ok.1 h
        have h1 := Outcome.ofPanicky_eq_ok.1 h1
        rw [hb] at h1
        cases h1
        rw [hk] at h
        refine (ihn (.repeatCount k f x) s ⟨hf, hx⟩ h).congr fun u => ?_
        refine Cat.congr (fun u => ?_) (fun _ => Iff.rfl) u
        constructor
        · intro h
          cases h with
          | repeatCount h1 h2 h3 =>
            rw [hb] at h1; cases h1
            rw [hk] at h2; cases h2
            exact h3
        · exact .repeatCount hb hk
      | repeatBetween y z f =>
        simp only [Format.Plain] at hf
        obtain ⟨⟨by_, bz, lo, hi, hby, hlo, hbz, hhi, hle⟩, hf⟩ := hf
        obtain ⟨b1, h1, h⟩ := Outcome.bind_eq_ok.1 h
        obtain ⟨b2, h2, h⟩ := Outcome.bind_eq_ok.1 h
        have h1 := Outcome.ofPanicky_eq_ok.1 h1
        have h2 := Outcome.ofPanicky_eq_ok.1 h2
        rw [hby] at h1
        rw [hbz] at h2
        cases h1
        cases h2
        rw [hlo, hhi] at h
        simp only [] at h
        have hw : ∀ u, Word m (.repeatBetween y z f) u ↔ ∃ k, lo ≤ k ∧ k ≤ hi ∧ Power m f k u := by
          intro u
          constructor
          · intro h
            cases h with
            | repeatBetween h1 h2 h3 h4 h5 h6 h7 =>
              rw [hby] at h1; cases h1
              rw [hbz] at h3; cases h3
              rw [hlo] at h2; cases h2
              rw [hhi] at h4; cases h4
              exact ⟨_, h5, h6, h7⟩
          · rintro ⟨k, h5, h6, h7⟩
            exact .repeatBetween hby hlo hbz hhi h5 h6 h7
        have he : ∀ u, Cat (Word m (.repeatBetween y z f)) (Follow m x) u ↔ Follow m (.repeatBetween lo hi f x) u :=
          Cat.congr hw (fun _ => Iff.rfl)
        split at h
        · split at h
          · obtain ⟨lo, rfl⟩ : ∃ k, lo = k + 1 := ⟨lo - 1, by omega⟩
            obtain ⟨hi, rfl⟩ : ∃ k, hi = k + 1 := ⟨hi - 1, by omega⟩
            refine (ihf f (.repeatBetween lo hi f x) s hf ⟨by omega, hf, hx⟩ h).congr fun u => ?_
            rw [he]
            exact follow_between u
          · obtain rfl : lo = 0 := by omega
            refine (ihn (.repeatMax hi f x) s ⟨hf, hx⟩ h).congr fun u => ?_
            rw [he]
            exact follow_between_zero u
        · split at h
          · next e =>
            subst e
            refine (ihn (.repeatCount lo f x) s ⟨hf, hx⟩ h).congr fun u => ?_
            rw [he]
            refine Cat.congr (fun u => ?_) (fun _ => Iff.rfl) u
            constructor
            · rintro ⟨k, h1, h2, h3⟩
              obtain rfl : k = lo := by omega
              exact h3
            · intro h; exact ⟨lo, Nat.le_refl _, Nat.le_refl _, h⟩
          · cases h
      | maybe e f =>
        simp only [Format.Plain] at hf
        obtain ⟨t1, h1, h⟩ := Outcome.bind_eq_ok.1 h
        obtain ⟨t2, h2, h⟩ := Outcome.bind_eq_ok.1 h
        cases h
        refine ((ihf f x t1 hf hx h1).union (ihn x t2 hx h2)).congr fun u => ?_
        constructor
        · rintro ⟨a, b, rfl, hw, hb⟩
          cases hw with
          | maybe_none => exact .inr hb
          | maybe_some hw => exact .inl ⟨a, b, rfl, hw, hb⟩
        · rintro (⟨a, b, rfl, hw, hb⟩ | hb)
          · exact ⟨a, b, rfl, .maybe_some hw, hb⟩
          · exact ⟨[], u, rfl, .maybe_none, hb⟩
      | map f e =>
        simp only [Format.Plain] at hf
        exact (ihf f x s hf hx h).congr (cat_congr_left fun u => ⟨fun h => by cases h; assumption, .map⟩)
      | where_ f e b =>
        simp only [Format.Plain] at hf
        exact (ihf f x s hf hx h).congr (cat_congr_left fun u => ⟨fun h => by cases h; assumption, .where_⟩)
      | compute e =>
        exact (ihn x s hx h).congr (cat_nil_left fun u => ⟨fun h => by cases h; rfl, fun h => h ▸ .compute⟩)
      | let_ y e f =>
        simp only [Format.Plain] at hf
        exact (ihf f x s hf hx h).congr (cat_congr_left fun u => ⟨fun h => by cases h; assumption, .let_⟩)
      | match_ e bs =>
        simp only [Format.Plain] at hf
        refine (unionAll_exact (L := fun f => Cat (Word m f) (Follow m x))
          (fun f hfm s hs => ?_) Exact.reject h).congr fun u => ?_
        · obtain ⟨p, hp, rfl⟩ := List.mem_map.1 hfm
          exact ihf _ x s (hf.2.get p hp) hx hs
        · simp only [false_or, List.mem_map]
          constructor
          · rintro ⟨a, b, rfl, hw, hb⟩
            cases hw with | match_ h1 h2 => exact ⟨_, ⟨_, h1, rfl⟩, a, b, rfl, h2, hb⟩
          · rintro ⟨_, ⟨p, hp, rfl⟩, a, b, rfl, hw, hb⟩; exact ⟨a, b, rfl, .match_ hp hw, hb⟩
      | letFormat f y g =>
        simp only [Format.Plain] at hf
        refine (ihf f (.cat g x) s hf.1 ⟨hf.2, hx⟩ h).congr fun u => ?_
        rw [show Follow m (.cat g x) = Cat (Word m g) (Follow m x) from rfl, ← Cat.assoc]
        exact Cat.congr (fun u => ⟨fun h => by cases h with | letFormat h1 h2 => exact ⟨_, _, rfl, h1, h2⟩,
          fun ⟨_, _, e, h1, h2⟩ => e ▸ .letFormat h1 h2⟩) (fun _ => Iff.rfl) u
      | monadSeq f g =>
        simp only [Format.Plain] at hf
        refine (ihf f (.cat g x) s hf.1 ⟨hf.2, hx⟩ h).congr fun u => ?_
        rw [show Follow m (.cat g x) = Cat (Word m g) (Follow m x) from rfl, ← Cat.assoc]
        exact Cat.congr (fun u => ⟨fun h => by cases h with | monadSeq h1 h2 => exact ⟨_, _, rfl, h1, h2⟩,
          fun ⟨_, _, e, h1, h2⟩ => e ▸ .monadSeq h1 h2⟩) (fun _ => Iff.rfl) u
      | hint f =>
        simp only [Format.Plain] at hf
        exact (ihf f x s hf hx h).congr (cat_congr_left fun u => ⟨fun h => by cases h; assumption, .hint⟩)
      | liftedNone =>
        exact (ihn x s hx h).congr (cat_nil_left fun u => ⟨fun h => by cases h; rfl, fun h => h ▸ .liftedNone⟩)
      | liftedSome f =>
        simp only [Format.Plain] at hf
        exact (ihf f x s hf hx h).congr (cat_congr_left fun u => ⟨fun h => by cases h; assumption, .liftedSome⟩)
      | letView y f =>
        simp only [Format.Plain] at hf
        exact (ihf f x s hf hx h).congr (cat_congr_left fun u => ⟨fun h => by cases h; assumption, .letView⟩)
      | pos => exact (ihn x s hx h).congr (cat_nil_left fun u => ⟨fun h => by cases h; rfl, fun h => h ▸ .pos⟩)
      | captureBytes v e =>
        exact (ihn x s hx h).congr (cat_nil_left fun u => ⟨fun h => by cases h; rfl, fun h => h ▸ .captureBytes⟩)
      | readArray v e k =>
        exact (ihn x s hx h).congr (cat_nil_left fun u => ⟨fun h => by cases h; rfl, fun h => h ▸ .readArray⟩)
      | reifyView v =>
        exact (ihn x s hx h).congr (cat_nil_left fun u => ⟨fun h => by cases h; rfl, fun h => h ▸ .reifyView⟩)
      | decodeBytes e f =>
        exact (ihn x s hx h).congr (cat_nil_left fun u => ⟨fun h => by cases h; rfl, fun h => h ▸ .decodeBytes⟩)
      | parseFromView v f =>
        exact (ihn x s hx h).congr (cat_nil_left fun u => ⟨fun h => by cases h; rfl, fun h => h ▸ .parseFromView⟩)
      | enforce f =>
        simp only [Format.Plain] at hf
        exact (ihf f x s hf hx h).congr (cat_congr_left fun u => ⟨fun h => by cases h; assumption, .enforce⟩)
      | permit f e =>
        simp only [Format.Plain] at hf
        exact (ihf f x s hf hx h).congr (cat_congr_left fun u => ⟨fun h => by cases h; assumption, .permit⟩)
      | _ => simp only [Format.Plain] at hf

/-- plain formats have words -/
theorem power_some {f : Format} (h : ∃ u, Word m f u) : ∀ n, ∃ u, Power m f n u
  | 0 => ⟨_, .zero⟩
  | n + 1 => by
    obtain ⟨u, hu⟩ := h
    obtain ⟨v, hv⟩ := power_some ⟨u, hu⟩ n
    exact ⟨_, .succ hu hv⟩

mutual
theorem word_some (hm : m.Plain E) (k : Nat) (ih : ∀ j, j < k → ∀ it, m.items[j]? = some it → ∃ u, Word m it.format u) :
    ∀ {f : Format} {a : Bool}, f.Plain m E k a → ∃ u, Word m f u
  | .itemVar level _ _, _, hf => by
    simp only [Format.Plain] at hf
    have hi : m.items[level]? = some m.items[level] := List.getElem?_eq_getElem hf.2.1
    obtain ⟨u, hu⟩ := ih level hf.1 _ hi
    exact ⟨u, .itemVar hi hu⟩
  | .byte _, _, hf => by simp only [Format.Plain] at hf; obtain ⟨b, hb⟩ := hf; exact ⟨_, .byte hb⟩
  | .variant _ f, _, hf => by simp only [Format.Plain] at hf; obtain ⟨u, hu⟩ := word_some hm k ih hf; exact ⟨u, .variant hu⟩
  | .union [], _, hf => by simp [Format.Plain] at hf
  | .union (f :: fs), _, hf => by
    simp only [Format.Plain, Format.EachPlain] at hf
    obtain ⟨u, hu⟩ := word_some hm k ih hf.2.1
    exact ⟨u, .union List.mem_cons_self hu⟩
  | .unionNondet [], _, hf => by simp [Format.Plain] at hf
  | .unionNondet (f :: fs), _, hf => by
    simp only [Format.Plain, Format.EachPlain] at hf
    obtain ⟨u, hu⟩ := word_some hm k ih hf.2.1
    exact ⟨u, .unionNondet List.mem_cons_self hu⟩
  | .tuple fs, _, hf => by simp only [Format.Plain] at hf; obtain ⟨u, hu⟩ := words_some hm k ih hf; exact ⟨u, .tuple hu⟩
  | .sequence fs, _, hf => by
    simp only [Format.Plain] at hf; obtain ⟨u, hu⟩ := words_some hm k ih hf; exact ⟨u, .sequence hu⟩
  | .repeat_ f, _, _ => ⟨[], .repeat_ .zero⟩
  | .repeat1 f, _, hf => by
    simp only [Format.Plain] at hf
    obtain ⟨u, hu⟩ := power_some (word_some hm k ih hf) 1
    exact ⟨u, .repeat1 hu⟩
  | .repeatCount e f, _, hf => by
    simp only [Format.Plain] at hf
    obtain ⟨⟨b, n, hb, hn⟩, hf⟩ := hf
    obtain ⟨u, hu⟩ := power_some (word_some hm k ih hf) n
    exact ⟨u, .repeatCount hb hn hu⟩
  | .repeatBetween x y f, _, hf => by
    simp only [Format.Plain] at hf
    obtain ⟨⟨bx, by_, lo, hi, h1, h2, h3, h4, h5⟩, hf⟩ := hf
    obtain ⟨u, hu⟩ := power_some (word_some hm k ih hf) lo
    exact ⟨u, .repeatBetween h1 h2 h3 h4 (Nat.le_refl _) h5 hu⟩
  | .maybe _ f, _, _ => ⟨[], .maybe_none⟩
  | .map f _, _, hf => by simp only [Format.Plain] at hf; obtain ⟨u, hu⟩ := word_some hm k ih hf; exact ⟨u, .map hu⟩
  | .where_ f _ _, _, hf => by simp only [Format.Plain] at hf; obtain ⟨u, hu⟩ := word_some hm k ih hf; exact ⟨u, .where_ hu⟩
  | .compute _, _, _ => ⟨[], .compute⟩
  | .let_ _ _ f, _, hf => by simp only [Format.Plain] at hf; obtain ⟨u, hu⟩ := word_some hm k ih hf; exact ⟨u, .let_ hu⟩
  | .match_ _ [], _, hf => by simp [Format.Plain] at hf
  | .match_ _ ((p, f) :: bs), _, hf => by
    simp only [Format.Plain, Format.BranchesPlain] at hf
    obtain ⟨u, hu⟩ := word_some hm k ih hf.2.1
    exact ⟨u, .match_ List.mem_cons_self hu⟩
  | .letFormat f _ g, _, hf => by
    simp only [Format.Plain] at hf
    obtain ⟨u, hu⟩ := word_some hm k ih hf.1
    obtain ⟨v, hv⟩ := word_some hm k ih hf.2
    exact ⟨_, .letFormat hu hv⟩
  | .monadSeq f g, _, hf => by
    simp only [Format.Plain] at hf
    obtain ⟨u, hu⟩ := word_some hm k ih hf.1
    obtain ⟨v, hv⟩ := word_some hm k ih hf.2
    exact ⟨_, .monadSeq hu hv⟩
  | .hint f, _, hf => by simp only [Format.Plain] at hf; obtain ⟨u, hu⟩ := word_some hm k ih hf; exact ⟨u, .hint hu⟩
  | .liftedNone, _, _ => ⟨[], .liftedNone⟩
  | .liftedSome f, _, hf => by
    simp only [Format.Plain] at hf; obtain ⟨u, hu⟩ := word_some hm k ih hf; exact ⟨u, .liftedSome hu⟩
  | .letView _ f, _, hf => by simp only [Format.Plain] at hf; obtain ⟨u, hu⟩ := word_some hm k ih hf; exact ⟨u, .letView hu⟩
  | .pos, _, _ => ⟨[], .pos⟩
  | .captureBytes _ _, _, _ => ⟨[], .captureBytes⟩
  | .readArray _ _ _, _, _ => ⟨[], .readArray⟩
  | .reifyView _, _, _ => ⟨[], .reifyView⟩
  | .decodeBytes _ _, _, _ => ⟨[], .decodeBytes⟩
  | .parseFromView _ _, _, _ => ⟨[], .parseFromView⟩
  | .enforce f, _, hf => by simp only [Format.Plain] at hf; obtain ⟨u, hu⟩ := word_some hm k ih hf; exact ⟨u, .enforce hu⟩
  | .permit f _, _, hf => by simp only [Format.Plain] at hf; obtain ⟨u, hu⟩ := word_some hm k ih hf; exact ⟨u, .permit hu⟩
  | .phantom _, _, hf => by simp only [Format.Plain] at hf
  | .fail, _, hf => by simp only [Format.Plain] at hf
  | .endOfInput, _, _ => ⟨[], .endOfInput⟩
  | .skipRemainder, _, hf => by simp only [Format.Plain] at hf
  | .align _, _, hf => by simp only [Format.Plain] at hf
  | .forEach _ _ _, _, hf => by simp only [Format.Plain] at hf
  | .repeatUntilLast _ _, _, hf => by simp only [Format.Plain] at hf
  | .repeatUntilSeq _ _, _, hf => by simp only [Format.Plain] at hf
  | .accumUntil _ _ _ _ _, _, hf => by simp only [Format.Plain] at hf
  | .peek _, _, hf => by simp only [Format.Plain] at hf
  | .peekNot _, _, hf => by simp only [Format.Plain] at hf
  | .slice _ _, _, hf => by simp only [Format.Plain] at hf
  | .bits _, _, hf => by simp only [Format.Plain] at hf
  | .withRelativeOffset _ _ _, _, hf => by simp only [Format.Plain] at hf
  | .dynamic _ _ _ _, _, hf => by simp only [Format.Plain] at hf
  | .apply _, _, hf => by simp only [Format.Plain] at hf

theorem words_some (hm : m.Plain E) (k : Nat) (ih : ∀ j, j < k → ∀ it, m.items[j]? = some it → ∃ u, Word m it.format u) :
    ∀ {fs : List Format} {a : Bool}, Format.FieldsPlain m E k a fs → ∃ u, Words m fs u
  | [], _, _ => ⟨[], .nil⟩
  | f :: fs, _, hf => by
    simp only [Format.FieldsPlain] at hf
    obtain ⟨u, hu⟩ := word_some hm k ih hf.1
    obtain ⟨v, hv⟩ := words_some hm k ih hf.2
    exact ⟨_, .cons hu hv⟩
end

theorem item_word (hm : m.Plain E) (k : Nat) : ∀ it, m.items[k]? = some it → ∃ u, Word m it.format u := by
  induction k using Nat.strongRecOn with
  | _ k ih => exact fun it hi => word_some hm k ih (hm k it hi)

theorem plain_word (hm : m.Plain E) {k : Nat} {a : Bool} {f : Format} (hf : f.Plain m E k a) : ∃ u, Word m f u :=
  word_some hm k (fun j _ => item_word hm j) hf

theorem plain_follow (hm : m.Plain E) : ∀ {x : Next}, x.Plain m E → ∃ u, Follow m x u
  | .empty, _ => ⟨[], rfl⟩
  | .union a b, h => by obtain ⟨u, hu⟩ := plain_follow hm h.1; exact ⟨u, .inl hu⟩
  | .cat f x, h => by
    obtain ⟨u, hu⟩ := plain_word hm h.1
    obtain ⟨v, hv⟩ := plain_follow hm h.2
    exact ⟨_, u, v, rfl, hu, hv⟩
  | .sequence fs x, h => by
    obtain ⟨u, hu⟩ := words_some hm _ (fun j _ => item_word hm j) h.1
    obtain ⟨v, hv⟩ := plain_follow hm h.2
    exact ⟨_, u, v, rfl, hu, hv⟩
  | .repeat_ f x, h => by
    obtain ⟨v, hv⟩ := plain_follow hm h.2
    exact ⟨_, [], v, rfl, ⟨0, .zero⟩, hv⟩
  | .repeatCount n f x, h => by
    obtain ⟨u, hu⟩ := power_some (plain_word hm h.1) n
    obtain ⟨v, hv⟩ := plain_follow hm h.2
    exact ⟨_, u, v, rfl, hu, hv⟩
  | .repeatMax n f x, h => by
    obtain ⟨v, hv⟩ := plain_follow hm h.2
    exact ⟨_, [], v, rfl, ⟨0, Nat.zero_le _, .zero⟩, hv⟩
  | .repeatBetween lo hi f x, h => by
    obtain ⟨u, hu⟩ := power_some (plain_word hm h.2.1) lo
    obtain ⟨v, hv⟩ := plain_follow hm h.2.2
    exact ⟨_, u, v, rfl, ⟨lo, Nat.le_refl _, h.1, hu⟩, hv⟩

/-- the languages are a semantics of continuations -/
theorem follow_sem (hm : m.Plain E) (n : Nat) :
    Sem m n (Next.Plain m E) (Follow m) (fun x => Viable (Follow m x)) where
  accept x s hx hs := ((step_exact hm n).1 x s hx hs).accept
  next x s b u hx hs := ((step_exact hm n).1 x s hx hs).next b u
  live x hx := by obtain ⟨v, hv⟩ := plain_follow hm hx; exact ⟨v, hv⟩
  view x s b u hx hs := by
    have := ((step_exact hm n).1 x s hx hs).next b
    constructor
    · rintro ⟨v, hv⟩
      obtain ⟨y, hy, hf⟩ := (this _).1 hv
      exact ⟨y, hy, v, hf⟩
    · rintro ⟨y, hy, v, hf⟩
      exact ⟨v, (this _).2 ⟨y, hy, hf⟩⟩
  keep x s b y hx hs hy := by
    obtain ⟨bs, hm', _⟩ := hy
    exact ((step_exact hm n).1 x s hx hs).keep _ hm'

end
end Doodle
