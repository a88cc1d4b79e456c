import Verif.Model.MatchTree
import Verif.Props.ByteSet
import Verif.Lemmas.HuffmanTree

/-!
Prefix trees decide between languages.  The development is parametric in a semantics of `Next`: a language
`L`, a set of viable prefixes `V`, and a condition `P`, of which we need that one step computes the
derivatives (`Sem`).
-/

namespace Doodle
namespace Tree

open ByteSet

/-- the byte `b` leads from the step to the continuation `x` -/
def Step.To (s : Step) (b : UInt8) (x : Next) : Prop := ∃ bs, (bs, x) ∈ s.branches ∧ bs.contains b = true

/-- the byte `b` leads to this entry -/
def To (l : List (ByteSet × LevelBranch)) (b : UInt8) (e : Nat × Next) : Prop :=
  ∃ bs es, (bs, es) ∈ l ∧ bs.contains b = true ∧ e ∈ es

/-- the branches are disjoint, and none is empty -/
def Ok (l : List (ByteSet × LevelBranch)) : Prop :=
  l.Pairwise (fun p q => ∀ b, ¬ (p.1.contains b = true ∧ q.1.contains b = true)) ∧ ∀ p ∈ l, p.2 ≠ []

theorem inter_empty {s t : ByteSet} : (s.intersection t).isEmpty = true ↔
    ∀ b, ¬ (s.contains b = true ∧ t.contains b = true) := by
  rw [C01_isEmpty]
  simp only [C01_contains_intersection]

/-- what `splitBranches` does, byte by byte -/
structure Split (entry : Nat × Next) (bs : ByteSet) (l : List (ByteSet × LevelBranch))
    (r : List (ByteSet × LevelBranch) × ByteSet × List (ByteSet × LevelBranch)) : Prop where
  rest : ∀ b, r.2.1.contains b = true ↔ bs.contains b = true ∧ ∀ p ∈ l, ¬ p.1.contains b = true
  sub1 : ∀ p ∈ r.1, ∀ b, p.1.contains b = true → ∃ q ∈ l, q.1.contains b = true
  sub2 : ∀ p ∈ r.2.2, ∀ b, p.1.contains b = true → ¬ bs.contains b = true ∧ ∃ q ∈ l, q.1.contains b = true
  ok1 : Ok r.1
  ok2 : Ok r.2.2
  apart : ∀ p ∈ r.1, ∀ q ∈ r.2.2, ∀ b, ¬ (p.1.contains b = true ∧ q.1.contains b = true)
  to : ∀ b e, (To r.1 b e ∨ To r.2.2 b e) ↔
    To l b e ∨ (bs.contains b = true ∧ (∃ q ∈ l, q.1.contains b = true) ∧ e = entry)

theorem To.nil {b e} : ¬ To [] b e := fun ⟨_, _, h, _⟩ => nomatch h

theorem To.cons {p : ByteSet × LevelBranch} {l b e} :
    To (p :: l) b e ↔ (p.1.contains b = true ∧ e ∈ p.2) ∨ To l b e := by
  obtain ⟨bs, es⟩ := p
  constructor
  · rintro ⟨bs', es', h, hb, he⟩
    rcases List.mem_cons.1 h with h | h
    · cases h; exact .inl ⟨hb, he⟩
    · exact .inr ⟨bs', es', h, hb, he⟩
  · rintro (⟨hb, he⟩ | ⟨bs', es', h, hb, he⟩)
    · exact ⟨bs, es, List.mem_cons_self, hb, he⟩
    · exact ⟨bs', es', List.mem_cons_of_mem _ h, hb, he⟩

theorem To.append {l l' : List (ByteSet × LevelBranch)} {b e} : To (l ++ l') b e ↔ To l b e ∨ To l' b e := by
  induction l with
  | nil => simp [To.nil]
  | cons p l ih => rw [List.cons_append, To.cons, To.cons, ih, or_assoc]

theorem Ok.nil : Ok [] := ⟨.nil, (fun _ h => nomatch h)⟩

theorem Ok.cons {p : ByteSet × LevelBranch} {l} : Ok (p :: l) ↔
    (∀ q ∈ l, ∀ b, ¬ (p.1.contains b = true ∧ q.1.contains b = true)) ∧ p.2 ≠ [] ∧ Ok l := by
  unfold Ok
  rw [List.pairwise_cons]
  simp only [List.mem_cons, forall_eq_or_imp]
  constructor
  · rintro ⟨⟨a, b⟩, c, d⟩; exact ⟨a, c, b, d⟩
  · rintro ⟨a, c, b, d⟩; exact ⟨⟨a, b⟩, c, d⟩

theorem Ok.append {l l' : List (ByteSet × LevelBranch)} (h : Ok l) (h' : Ok l')
    (ha : ∀ p ∈ l, ∀ q ∈ l', ∀ b, ¬ (p.1.contains b = true ∧ q.1.contains b = true)) : Ok (l ++ l') := by
  refine ⟨List.pairwise_append.2 ⟨h.1, h'.1, ha⟩, ?_⟩
  intro p hp
  rcases List.mem_append.1 hp with hp | hp
  · exact h.2 p hp
  · exact h'.2 p hp

theorem split (entry : Nat × Next) : ∀ (bs : ByteSet) (l : List (ByteSet × LevelBranch)), Ok l →
    Split entry bs l (Level.splitBranches entry bs l)
  | bs, [], _ => by
    refine ⟨?_, (fun p h => nomatch h), (fun p h => nomatch h), .nil, .nil, (fun p h => nomatch h), ?_⟩
    · intro b; simp [Level.splitBranches]
    · intro b e; simp [Level.splitBranches, To.nil]
  | bs, (bs0, es) :: rest, h => by
    obtain ⟨h0, hne, hr⟩ := Ok.cons.1 h
    simp only [Level.splitBranches]
    split
    · next hd =>
      rw [inter_empty] at hd
      have ih := split entry bs rest hr
      refine ⟨?_, ?_, ?_, ?_, ih.ok2, ?_, ?_⟩
      · intro b
        rw [ih.rest b]
        simp only [List.mem_cons, forall_eq_or_imp]
        exact ⟨fun ⟨a, c⟩ => ⟨a, fun hx => hd b ⟨hx, a⟩, c⟩, fun ⟨a, _, c⟩ => ⟨a, c⟩⟩
      · intro p hp b hb
        rcases List.mem_cons.1 hp with rfl | hp
        · exact ⟨_, List.mem_cons_self, hb⟩
        · obtain ⟨q, hq, hqb⟩ := ih.sub1 p hp b hb
          exact ⟨q, List.mem_cons_of_mem _ hq, hqb⟩
      · intro p hp b hb
        obtain ⟨hn, q, hq, hqb⟩ := ih.sub2 p hp b hb
        exact ⟨hn, q, List.mem_cons_of_mem _ hq, hqb⟩
      · refine Ok.cons.2 ⟨?_, hne, ih.ok1⟩
        intro q hq b ⟨hb, hqb⟩
        obtain ⟨q', hq', hqb'⟩ := ih.sub1 q hq b hqb
        exact h0 q' hq' b ⟨hb, hqb'⟩
      · intro p hp q hq b ⟨hpb, hqb⟩
        rcases List.mem_cons.1 hp with rfl | hp
        · obtain ⟨_, q', hq', hqb'⟩ := ih.sub2 q hq b hqb
          exact h0 q' hq' b ⟨hpb, hqb'⟩
        · exact ih.apart p hp q hq b ⟨hpb, hqb⟩
      · intro b e
        rw [To.cons, To.cons, or_assoc, ih.to b e, or_assoc]
        constructor
        · rintro (h | h | ⟨h, ⟨q, hq, hqb⟩, rfl⟩)
          · exact .inl h
          · exact .inr (.inl h)
          · exact .inr (.inr ⟨h, ⟨q, List.mem_cons_of_mem _ hq, hqb⟩, rfl⟩)
        · rintro (h | h | ⟨h, ⟨q, hq, hqb⟩, rfl⟩)
          · exact .inl h
          · exact .inr (.inl h)
          · rcases List.mem_cons.1 hq with rfl | hq
            · exact absurd ⟨hqb, h⟩ (hd b)
            · exact .inr (.inr ⟨h, ⟨q, hq, hqb⟩, rfl⟩)
    · have ih := split entry (bs.difference (bs0.intersection bs)) rest hr
      have hdiff : ∀ b, (bs.difference (bs0.intersection bs)).contains b = true ↔
          bs.contains b = true ∧ ¬ bs0.contains b = true := by
        intro b
        rw [C01_contains_difference, C01_contains_intersection]
        constructor
        · rintro ⟨a, c⟩; exact ⟨a, fun x => c ⟨x, a⟩⟩
        · rintro ⟨a, c⟩; exact ⟨a, fun x => c x.1⟩
      -- the queue with or without what is left of the first branch
      have hq : ∀ b e, To (if (bs0.difference bs).isEmpty then
            (Level.splitBranches entry (bs.difference (bs0.intersection bs)) rest).2.2
          else (bs0.difference bs, es) :: (Level.splitBranches entry (bs.difference (bs0.intersection bs)) rest).2.2) b e ↔
          ((bs0.contains b = true ∧ ¬ bs.contains b = true) ∧ e ∈ es) ∨
            To (Level.splitBranches entry (bs.difference (bs0.intersection bs)) rest).2.2 b e := by
        intro b e
        split
        · next he =>
          rw [C01_isEmpty] at he
          have := he b
          rw [C01_contains_difference] at this
          constructor
          · exact .inr
          · rintro (h | h)
            · exact absurd h.1 this
            · exact h
        · rw [To.cons]
          simp only [C01_contains_difference]
      have hmem : ∀ p ∈ (if (bs0.difference bs).isEmpty then
            (Level.splitBranches entry (bs.difference (bs0.intersection bs)) rest).2.2
          else (bs0.difference bs, es) :: (Level.splitBranches entry (bs.difference (bs0.intersection bs)) rest).2.2),
          p = (bs0.difference bs, es) ∨ p ∈ (Level.splitBranches entry (bs.difference (bs0.intersection bs)) rest).2.2 := by
        intro p hp
        split at hp
        · exact .inr hp
        · exact List.mem_cons.1 hp
      refine ⟨?_, ?_, ?_, ?_, ?_, ?_, ?_⟩
      · intro b
        rw [ih.rest b, hdiff b]
        simp only [List.mem_cons, forall_eq_or_imp]
        exact and_assoc
      · intro p hp b hb
        rcases List.mem_cons.1 hp with rfl | hp
        · exact ⟨_, List.mem_cons_self, ((C01_contains_intersection _ _ _).1 hb).1⟩
        · obtain ⟨q, hq, hqb⟩ := ih.sub1 p hp b hb
          exact ⟨q, List.mem_cons_of_mem _ hq, hqb⟩
      · intro p hp b hb
        rcases hmem p hp with rfl | hp
        · have := (C01_contains_difference _ _ _).1 hb
          exact ⟨this.2, _, List.mem_cons_self, this.1⟩
        · obtain ⟨hn, q, hq, hqb⟩ := ih.sub2 p hp b hb
          refine ⟨?_, q, List.mem_cons_of_mem _ hq, hqb⟩
          intro hx
          exact hn ((hdiff b).2 ⟨hx, fun h => h0 q hq b ⟨h, hqb⟩⟩)
      · refine Ok.cons.2 ⟨?_, by simp, ih.ok1⟩
        intro q hq b ⟨hb, hqb⟩
        obtain ⟨q', hq', hqb'⟩ := ih.sub1 q hq b hqb
        exact h0 q' hq' b ⟨((C01_contains_intersection _ _ _).1 hb).1, hqb'⟩
      · split
        · exact ih.ok2
        · refine Ok.cons.2 ⟨?_, hne, ih.ok2⟩
          intro q hq b ⟨hb, hqb⟩
          obtain ⟨_, q', hq', hqb'⟩ := ih.sub2 q hq b hqb
          exact h0 q' hq' b ⟨((C01_contains_difference _ _ _).1 hb).1, hqb'⟩
      · intro p hp q hq b ⟨hpb, hqb⟩
        rcases List.mem_cons.1 hp with rfl | hp
        · have hp := (C01_contains_intersection _ _ _).1 hpb
          rcases hmem q hq with rfl | hq
          · exact ((C01_contains_difference _ _ _).1 hqb).2 hp.2
          · obtain ⟨_, q', hq', hqb'⟩ := ih.sub2 q hq b hqb
            exact h0 q' hq' b ⟨hp.1, hqb'⟩
        · rcases hmem q hq with rfl | hq
          · obtain ⟨q', hq', hqb'⟩ := ih.sub1 p hp b hpb
            exact h0 q' hq' b ⟨((C01_contains_difference _ _ _).1 hqb).1, hqb'⟩
          · exact ih.apart p hp q hq b ⟨hpb, hqb⟩
      · intro b e
        rw [hq b e, To.cons, To.cons]
        have hi := ih.to b e
        simp only [C01_contains_intersection, List.mem_append, hdiff, List.mem_cons, List.not_mem_nil, or_false,
          exists_eq_or_imp] at hi ⊢
        constructor
        · rintro ((⟨⟨h1, h2⟩, h3 | h3⟩ | h) | (⟨⟨h1, h2⟩, h3⟩ | h))
          · exact .inl (.inl ⟨h1, h3⟩)
          · exact .inr ⟨h2, .inl h1, h3⟩
          · rcases hi.1 (.inl h) with h | ⟨⟨h1, h2⟩, h3, h4⟩
            · exact .inl (.inr h)
            · exact .inr ⟨h1, .inr h3, h4⟩
          · exact .inl (.inl ⟨h1, h3⟩)
          · rcases hi.1 (.inr h) with h | ⟨⟨h1, h2⟩, h3, h4⟩
            · exact .inl (.inr h)
            · exact .inr ⟨h1, .inr h3, h4⟩
        · rintro ((⟨h1, h2⟩ | h) | ⟨h1, h2 | h2, h3⟩)
          · by_cases hb : bs.contains b = true
            · exact .inl (.inl ⟨⟨h1, hb⟩, .inl h2⟩)
            · exact .inr (.inl ⟨⟨h1, hb⟩, h2⟩)
          · rcases hi.2 (.inl h) with h | h
            · exact .inl (.inr h)
            · exact .inr (.inr h)
          · exact .inl (.inl ⟨⟨h2, h1⟩, .inr h3⟩)
          · by_cases hb : bs0.contains b = true
            · exact .inl (.inl ⟨⟨hb, h1⟩, .inr h3⟩)
            · rcases hi.2 (.inr ⟨⟨h1, hb⟩, h2, h3⟩) with h | h
              · exact .inl (.inr h)
              · exact .inr (.inr h)

theorem mergeBranch_ok {l : List (ByteSet × LevelBranch)} (h : Ok l) (i : Nat) (bs : ByteSet) (x : Next) :
    Ok (Level.mergeBranch l i bs x) ∧
    ∀ b e, To (Level.mergeBranch l i bs x) b e ↔ To l b e ∨ (bs.contains b = true ∧ e = (i, x)) := by
  have hs := split (i, x) bs l h
  unfold Level.mergeBranch
  dsimp only
  generalize Level.splitBranches (i, x) bs l = r at hs
  have hto : ∀ b e, To (if r.2.1.isEmpty then [] else [(r.2.1, [(i, x)])]) b e ↔
      (bs.contains b = true ∧ ∀ p ∈ l, ¬ p.1.contains b = true) ∧ e = (i, x) := by
    intro b e
    split
    · next he =>
      rw [C01_isEmpty] at he
      have := he b
      rw [hs.rest] at this
      exact ⟨fun h => absurd h To.nil, fun h => absurd h.1 this⟩
    · rw [To.cons, hs.rest b]
      simp [To.nil]
  constructor
  · refine Ok.append (Ok.append hs.ok1 ?_ ?_) hs.ok2 ?_
    · split
      · exact .nil
      · exact Ok.cons.2 ⟨(fun _ h => nomatch h), by simp, .nil⟩
    · intro p hp q hq b ⟨hpb, hqb⟩
      split at hq
      · cases hq
      · rw [List.mem_singleton] at hq
        subst hq
        obtain ⟨q', hq', hqb'⟩ := hs.sub1 p hp b hpb
        exact ((hs.rest b).1 hqb).2 q' hq' hqb'
    · intro p hp q hq b ⟨hpb, hqb⟩
      rcases List.mem_append.1 hp with hp | hp
      · exact hs.apart p hp q hq b ⟨hpb, hqb⟩
      · split at hp
        · cases hp
        · rw [List.mem_singleton] at hp
          subst hp
          obtain ⟨_, q', hq', hqb'⟩ := hs.sub2 q hq b hqb
          exact ((hs.rest b).1 hpb).2 q' hq' hqb'
  · intro b e
    rw [To.append, To.append, hto b e]
    have := hs.to b e
    constructor
    · rintro ((h | h) | h)
      · rcases this.1 (.inl h) with h | h
        · exact .inl h
        · exact .inr ⟨h.1, h.2.2⟩
      · exact .inr ⟨h.1.1, h.2⟩
      · rcases this.1 (.inr h) with h | h
        · exact .inl h
        · exact .inr ⟨h.1, h.2.2⟩
    · rintro (h | ⟨h1, h2⟩)
      · rcases this.2 (.inl h) with h | h
        · exact .inl (.inl h)
        · exact .inr h
      · by_cases hq : ∃ q ∈ l, q.1.contains b = true
        · rcases this.2 (.inr ⟨h1, hq, h2⟩) with h | h
          · exact .inl (.inl h)
          · exact .inr h
        · exact .inl (.inr ⟨⟨h1, fun p hp hb => hq ⟨p, hp, hb⟩⟩, h2⟩)

theorem mergeBranches_ok {i : Nat} : ∀ {ss : List (ByteSet × Next)} {l : List (ByteSet × LevelBranch)}, Ok l →
    Ok (Level.mergeBranches i l ss) ∧ ∀ b e, To (Level.mergeBranches i l ss) b e ↔
      To l b e ∨ ∃ bs x, (bs, x) ∈ ss ∧ bs.contains b = true ∧ e = (i, x)
  | [], l, h => ⟨h, fun b e => by simp [Level.mergeBranches]⟩
  | (bs, x) :: ss, l, h => by
    have h1 := mergeBranch_ok h i bs x
    have ih := mergeBranches_ok (i := i) (ss := ss) h1.1
    refine ⟨ih.1, fun b e => ?_⟩
    rw [Level.mergeBranches, ih.2 b e, h1.2 b e, or_assoc]
    constructor
    · rintro (h | ⟨h, rfl⟩ | ⟨bs', x', h, h'⟩)
      · exact .inl h
      · exact .inr ⟨bs, x, List.mem_cons_self, h, rfl⟩
      · exact .inr ⟨bs', x', List.mem_cons_of_mem _ h, h'⟩
    · rintro (h | ⟨bs', x', h, h', rfl⟩)
      · exact .inl h
      · rcases List.mem_cons.1 h with h | h
        · cases h; exact .inr (.inl ⟨h', rfl⟩)
        · exact .inr (.inr ⟨bs', x', h, h', rfl⟩)

theorem mergeAccept_some {acc : Option Nat} {i : Nat} {a : Option Nat} (h : Level.mergeAccept acc i = some a) :
    a = some i ∧ (acc = none ∨ acc = some i) := by
  unfold Level.mergeAccept at h
  split at h
  · cases h; exact ⟨rfl, .inl rfl⟩
  · split at h
    · next e => cases h; exact ⟨by rw [e], .inr (by rw [e])⟩
    · cases h

/-- What merging the steps of all entries gives. -/
theorem mergeAll_ok {m : Module} {n : Nat} : ∀ {es : LevelBranch} {l l' : Level}, Ok l.branches →
    Level.mergeAll m n l es = .ok (some l') →
    Ok l'.branches ∧
    (∀ e ∈ es, ∃ s, Next.step m n e.2 = .ok s) ∧
    (∀ b e, To l'.branches b e ↔ To l.branches b e ∨
      ∃ x s, (e.1, x) ∈ es ∧ Next.step m n x = .ok s ∧ Step.To s b e.2) ∧
    (∀ i, l'.accept = some i ↔ l.accept = some i ∨
      ∃ x s, (i, x) ∈ es ∧ Next.step m n x = .ok s ∧ s.accept = true)
  | [], l, l', hl, h => by
    cases h
    exact ⟨hl, (fun e h => nomatch h), fun b e => by simp, fun i => by simp⟩
  | (i, x) :: es, l, l', hl, h => by
    simp only [Level.mergeAll] at h
    obtain ⟨s, hs, h⟩ := Outcome.bind_eq_ok.1 h
    cases hm : l.mergeStep i s with
    | none => rw [hm] at h; cases h
    | some l1 =>
      rw [hm] at h
      simp only [] at h
      have hb : Ok l1.branches ∧ (∀ b e, To l1.branches b e ↔
          To l.branches b e ∨ ∃ bs y, (bs, y) ∈ s.branches ∧ bs.contains b = true ∧ e = (i, y)) ∧
          (∀ j, l1.accept = some j ↔ l.accept = some j ∨ (j = i ∧ s.accept = true)) := by
        have hmb := mergeBranches_ok (i := i) (ss := s.branches) hl
        unfold Level.mergeStep at hm
        split at hm
        · next ha =>
          split at hm
          · cases hm
          · next a hacc =>
            cases hm
            obtain ⟨rfl, hor⟩ := mergeAccept_some hacc
            refine ⟨hmb.1, hmb.2, fun j => ?_⟩
            rcases hor with h | h
            · simp only [h, ha, and_true, Option.some.injEq, reduceCtorEq, false_or]; exact eq_comm
            · simp only [h, ha, and_true, Option.some.injEq]
              constructor
              · rintro rfl; exact .inl rfl
              · rintro (h | h)
                · exact h
                · exact h.symm
        · next ha =>
          cases hm
          exact ⟨hmb.1, hmb.2, fun j => by simp [ha]⟩
      obtain ⟨h1, h2, h3, h4⟩ := mergeAll_ok hb.1 h
      refine ⟨h1, ?_, ?_, ?_⟩
      · intro e he
        rcases List.mem_cons.1 he with rfl | he
        · exact ⟨s, hs⟩
        · exact h2 e he
      · intro b e
        rw [h3 b e, hb.2.1 b e, or_assoc]
        constructor
        · rintro (h | ⟨bs, y, hmem, hc, rfl⟩ | ⟨y, s', hmem, hs', ht⟩)
          · exact .inl h
          · exact .inr ⟨x, s, List.mem_cons_self, hs, bs, hmem, hc⟩
          · exact .inr ⟨y, s', List.mem_cons_of_mem _ hmem, hs', ht⟩
        · rintro (h | ⟨y, s', hmem, hs', ht⟩)
          · exact .inl h
          · rcases List.mem_cons.1 hmem with hmem | hmem
            · cases e
              cases hmem
              rw [hs] at hs'
              cases hs'
              obtain ⟨bs, hm, hc⟩ := ht
              exact .inr (.inl ⟨bs, _, hm, hc, rfl⟩)
            · exact .inr (.inr ⟨y, s', hmem, hs', ht⟩)
      · intro j
        rw [h4 j, hb.2.2 j, or_assoc]
        constructor
        · rintro (h | ⟨rfl, ha⟩ | ⟨y, s', hmem, hs', ht⟩)
          · exact .inl h
          · exact .inr ⟨x, s, List.mem_cons_self, hs, ha⟩
          · exact .inr ⟨y, s', List.mem_cons_of_mem _ hmem, hs', ht⟩
        · rintro (h | ⟨y, s', hmem, hs', ht⟩)
          · exact .inl h
          · rcases List.mem_cons.1 hmem with hmem | hmem
            · cases hmem
              rw [hs] at hs'
              cases hs'
              exact .inr (.inl ⟨rfl, ht⟩)
            · exact .inr (.inr ⟨y, s', hmem, hs', ht⟩)

theorem acceptsLoop_ok : ∀ {es : LevelBranch} {a r : Option Nat}, Level.acceptsLoop a es = some r →
    (∀ i, a = some i → r = some i) ∧ (∀ e ∈ es, r = some e.1) ∧ (es = [] → r = a)
  | [], a, r, h => by cases h; exact ⟨fun _ h => h, (fun _ h => nomatch h), fun _ => rfl⟩
  | (i, x) :: es, a, r, h => by
    simp only [Level.acceptsLoop] at h
    cases hm : Level.mergeAccept a i with
    | none => rw [hm] at h; cases h
    | some a' =>
      rw [hm] at h
      obtain ⟨rfl, hor⟩ := mergeAccept_some hm
      have ih := acceptsLoop_ok h
      refine ⟨?_, ?_, fun h => nomatch h⟩
      · intro j hj
        rcases hor with h' | h'
        · rw [h'] at hj; cases hj
        · rw [h'] at hj; cases hj; exact ih.1 _ rfl
      · intro e he
        rcases List.mem_cons.1 he with rfl | he
        · exact ih.1 _ rfl
        · exact ih.2.1 e he

theorem acceptsLoop_none : ∀ {es : LevelBranch} {a : Option Nat}, Level.acceptsLoop a es = none →
    ∃ e ∈ es, (∃ i, a = some i ∧ e.1 ≠ i) ∨ ∃ e' ∈ es, e.1 ≠ e'.1
  | (i, x) :: es, a, h => by
    simp only [Level.acceptsLoop] at h
    cases hm : Level.mergeAccept a i with
    | none =>
      unfold Level.mergeAccept at hm
      split at hm
      · cases hm
      · next j =>
        split at hm
        · cases hm
        · next hne => exact ⟨(i, x), List.mem_cons_self, .inl ⟨j, rfl, fun h => hne h.symm⟩⟩
    | some a' =>
      rw [hm] at h
      obtain ⟨rfl, hor⟩ := mergeAccept_some hm
      obtain ⟨e, he, hx⟩ := acceptsLoop_none h
      refine ⟨e, List.mem_cons_of_mem _ he, .inr ?_⟩
      rcases hx with ⟨j, hj, hne⟩ | ⟨e', he', hne⟩
      · cases hj; exact ⟨(i, x), List.mem_cons_self, hne⟩
      · exact ⟨e', List.mem_cons_of_mem _ he', hne⟩

/-- the trees of the branches, position by position -/
theorem growBranches_ok {grow : Nat → LevelBranch → Run (Option MatchTree)} :
    ∀ {l : List (ByteSet × LevelBranch)} {pos : Nat} {ts : List (ByteSet × MatchTree)},
      Level.growBranches grow pos l = .ok (some ts) →
      (∀ p ∈ ts, ∃ q es, (p.1, es) ∈ l ∧ grow q es = .ok (some p.2)) ∧
      ∀ b, ((∀ rest a, MatchTree.matchesBranches ts b rest a = a) ∧ ∀ p ∈ l, ¬ p.1.contains b = true) ∨
        ∃ q bs es t, (bs, es) ∈ l ∧ bs.contains b = true ∧ grow q es = .ok (some t) ∧
          ∀ rest a, MatchTree.matchesBranches ts b rest a = t.matchesBytes rest
  | [], pos, ts, h => by
    cases h
    exact ⟨(fun _ h => nomatch h), fun b => .inl ⟨fun rest a => by simp [MatchTree.matchesBranches], fun _ h => nomatch h⟩⟩
  | (bs, es) :: l, pos, ts, h => by
    simp only [Level.growBranches] at h
    obtain ⟨t, ht, h⟩ := Outcome.bind_eq_ok.1 h
    match t with
    | none => cases h
    | some t =>
      obtain ⟨ts', hts, h⟩ := Outcome.bind_eq_ok.1 h
      match ts' with
      | none => cases h
      | some ts' =>
        cases h
        have ih := growBranches_ok hts
        constructor
        · intro p hp
          rcases List.mem_cons.1 hp with rfl | hp
          · exact ⟨pos, es, List.mem_cons_self, ht⟩
          · obtain ⟨q, es', hm, hg⟩ := ih.1 p hp
            exact ⟨q, es', List.mem_cons_of_mem _ hm, hg⟩
        · intro b
          simp only [MatchTree.matchesBranches]
          by_cases hb : bs.contains b = true
          · simp only [hb, if_true]
            exact .inr ⟨pos, bs, es, t, List.mem_cons_self, hb, ht, fun _ _ => rfl⟩
          · simp only [hb]
            rcases ih.2 b with ⟨h1, h2⟩ | ⟨q, bs', es', t', hm, hc, hg, he⟩
            · refine .inl ⟨h1, ?_⟩
              intro p hp
              rcases List.mem_cons.1 hp with rfl | hp
              · exact hb
              · exact h2 p hp
            · exact .inr ⟨q, bs', es', t', List.mem_cons_of_mem _ hm, hc, hg, he⟩

/-- in disjoint branches, the entries a byte leads to are those of the one branch that has it -/
theorem Ok.to_eq {l : List (ByteSet × LevelBranch)} (h : Ok l) {bs : ByteSet} {es : LevelBranch}
    (hm : (bs, es) ∈ l) {b : UInt8} (hb : bs.contains b = true) (e : Nat × Next) : To l b e ↔ e ∈ es := by
  induction l with
  | nil => cases hm
  | cons p l ih =>
    obtain ⟨h0, hne, hr⟩ := Ok.cons.1 h
    rw [To.cons]
    rcases List.mem_cons.1 hm with rfl | hm
    · constructor
      · rintro (h | ⟨bs', es', hm', hb', _⟩)
        · exact h.2
        · exact absurd ⟨hb, hb'⟩ (h0 _ hm' b)
      · intro h; exact .inl ⟨hb, h⟩
    · rw [ih hr hm]
      constructor
      · rintro (h | h)
        · exact absurd ⟨h.1, hb⟩ (h0 _ hm b)
        · exact h
      · exact .inr

/-- One level of the tree, as seen by an input. -/
theorem grow_cases {m : Module} {ord : HashOrder} (ho : ord.Valid) {n depth : Nat} {path : List Nat}
    {es : LevelBranch} {t : MatchTree} (h : Level.grow m ord n depth path es = .ok (some t)) :
    (∃ a, (∀ e ∈ es, a = some e.1) ∧ (es = [] → a = none) ∧ ∀ w, t.matchesBytes w = a) ∨
    (∃ (depth' : Nat) (l : Level), depth = depth' + 1 ∧ Ok l.branches ∧
      (∃ e ∈ es, ∃ e' ∈ es, e.1 ≠ e'.1) ∧
      (∀ e ∈ es, ∃ s, Next.step m n e.2 = .ok s) ∧
      (∀ b e, To l.branches b e ↔ ∃ x s, (e.1, x) ∈ es ∧ Next.step m n x = .ok s ∧ Step.To s b e.2) ∧
      (∀ i, l.accept = some i ↔ ∃ x s, (i, x) ∈ es ∧ Next.step m n x = .ok s ∧ s.accept = true) ∧
      t.matchesBytes [] = l.accept ∧
      ∀ b, ((∀ w, t.matchesBytes (b :: w) = l.accept) ∧ ∀ e, ¬ To l.branches b e) ∨
        ∃ p bs es' t', (bs, es') ∈ l.branches ∧ bs.contains b = true ∧ es' ≠ [] ∧ (∀ e, e ∈ es' ↔ To l.branches b e) ∧
          Level.grow m ord n depth' p es' = .ok (some t') ∧ ∀ w, t.matchesBytes (b :: w) = t'.matchesBytes w) := by
  unfold Level.grow at h
  split at h
  · next t0 ha =>
    cases h
    unfold Level.accepts at ha
    split at ha
    · cases ha
    · next a hl =>
      cases ha
      have := acceptsLoop_ok hl
      refine .inl ⟨a, fun e he => this.2.1 e ((ho path es e).2 he), ?_, ?_⟩
      · intro hn
        apply this.2.2
        cases hx : ord path es with
        | nil => rfl
        | cons y ys =>
          have : y ∈ es := (ho path es y).1 (by rw [hx]; exact List.mem_cons_self)
          rw [hn] at this; cases this
      · intro w
        cases w with
        | nil => simp [MatchTree.matchesBytes]
        | cons b w => simp [MatchTree.matchesBytes, MatchTree.matchesBranches]
  · next ha =>
    have htwo : ∃ e ∈ es, ∃ e' ∈ es, e.1 ≠ e'.1 := by
      unfold Level.accepts at ha
      split at ha
      · next hl =>
        obtain ⟨e, he, hx⟩ := acceptsLoop_none hl
        rcases hx with ⟨i, hi, _⟩ | ⟨e', he', hne⟩
        · cases hi
        · exact ⟨e, (ho path es e).1 he, e', (ho path es e').1 he', hne⟩
      · cases ha
    split at h
    · cases h
    · next depth' =>
      obtain ⟨r, hr, h⟩ := Outcome.bind_eq_ok.1 h
      match r with
      | none => cases h
      | some l =>
        obtain ⟨ts, hts, h⟩ := Outcome.bind_eq_ok.1 h
        match ts with
        | none => cases h
        | some ts =>
          cases h
          have hmem : ∀ e, e ∈ Level.sortByIx (ord path es) ↔ e ∈ es := fun e =>
            HuffmanTree.mem_sortByIx.trans (ho path es e)
          obtain ⟨h1, h2, h3, h4⟩ := mergeAll_ok (l := Level.reject) .nil hr
          have hg := growBranches_ok hts
          refine .inr ⟨depth', l, rfl, h1, htwo, fun e he => h2 e ((hmem e).2 he), ?_, ?_, ?_, ?_⟩
          · intro b e
            rw [h3 b e]
            constructor
            · rintro (h | ⟨x, s, hm, hs⟩)
              · exact absurd h To.nil
              · exact ⟨x, s, (hmem _).1 hm, hs⟩
            · rintro ⟨x, s, hm, hs⟩
              exact .inr ⟨x, s, (hmem _).2 hm, hs⟩
          · intro i
            rw [h4 i]
            constructor
            · rintro (h | ⟨x, s, hm, hs⟩)
              · cases h
              · exact ⟨x, s, (hmem _).1 hm, hs⟩
            · rintro ⟨x, s, hm, hs⟩
              exact .inr ⟨x, s, (hmem _).2 hm, hs⟩
          · simp [MatchTree.matchesBytes]
          · intro b
            simp only [MatchTree.matchesBytes]
            rcases hg.2 b with ⟨h5, h6⟩ | ⟨q, bs, es', t', hm, hb, hg', he⟩
            · exact .inl ⟨fun w => h5 w _, fun e ⟨bs, es', hm, hb, _⟩ => h6 _ hm hb⟩
            · exact .inr ⟨_, bs, es', t', hm, hb, h1.2 _ hm, fun e => (h1.to_eq hm hb e).symm, hg', fun w => he w _⟩

/-- A semantics of continuations of which `Next.step` computes the derivatives. -/
structure Sem (m : Module) (n : Nat) (P : Next → Prop) (L V : Next → List UInt8 → Prop) : Prop where
  accept : ∀ x s, P x → Next.step m n x = .ok s → (s.accept = true ↔ L x [])
  next : ∀ x s b u, P x → Next.step m n x = .ok s → (L x (b :: u) ↔ ∃ y, Step.To s b y ∧ L y u)
  live : ∀ x, P x → V x []
  view : ∀ x s b u, P x → Next.step m n x = .ok s → (V x (b :: u) ↔ ∃ y, Step.To s b y ∧ V y u)
  keep : ∀ x s b y, P x → Next.step m n x = .ok s → Step.To s b y → P y

variable {m : Module} {n : Nat} {P : Next → Prop} {L V : Next → List UInt8 → Prop} {ord : HashOrder}

/-- If the input starts with a word of alternative `i`, and no other alternative is viable for a longer
part of the input, the tree chooses `i`. -/
theorem grow_complete (hs : Sem m n P L V) (ho : ord.Valid) : ∀ (depth : Nat) (path : List Nat)
    (es : LevelBranch) (t : MatchTree), Level.grow m ord n depth path es = .ok (some t) →
    (∀ e ∈ es, P e.2) → ∀ (u rest : List UInt8) (i : Nat) (x : Next), (i, x) ∈ es → L x u →
    (∀ p, p ≠ [] → p <+: rest → ∀ e ∈ es, e.1 ≠ i → ¬ V e.2 (u ++ p)) →
    t.matchesBytes (u ++ rest) = some i := by
  intro depth
  induction depth with
  | zero =>
    intro path es t h hP u rest i x hi hl hv
    rcases grow_cases ho h with ⟨a, h1, _, h3⟩ | ⟨_, _, hd, _⟩
    · rw [h3, h1 _ hi]
    · cases hd
  | succ depth ih =>
    intro path es t h hP u rest i x hi hl hv
    rcases grow_cases ho h with ⟨a, h1, _, h3⟩ | ⟨depth', l, hd, hok, _, hst, hto, hac, hnil, hcons⟩
    · rw [h3, h1 _ hi]
    · cases hd
      obtain ⟨s, hsx⟩ := hst _ hi
      have hPx := hP _ hi
      cases u with
      | nil =>
        have hacc : l.accept = some i :=
          (hac i).2 ⟨x, s, hi, hsx, (hs.accept x s hPx hsx).2 hl⟩
        cases rest with
        | nil => rw [List.append_nil, hnil, hacc]
        | cons b w =>
          rw [List.nil_append]
          rcases hcons b with ⟨h1, _⟩ | ⟨p, bs, es', t', hm, hb, hne, hes, hg, heq⟩
          · rw [h1, hacc]
          · rw [heq]
            -- all entries after `b` belong to `i`
            have hall : ∀ e ∈ es', e.1 = i := by
              intro e he
              obtain ⟨y, s', hy, hsy, ht⟩ := (hto b e).1 ((hes e).1 he)
              by_cases hei : e.1 = i
              · exact hei
              · exfalso
                refine hv [b] (by simp) ⟨w, rfl⟩ _ hy hei ?_
                have hPy := hP _ hy
                exact (hs.view y s' b [] hPy hsy).2 ⟨e.2, ht, hs.live _ (hs.keep y s' b e.2 hPy hsy ht)⟩
            rcases grow_cases ho hg with ⟨a, h1, _, h3⟩ | ⟨_, _, _, _, ⟨e, he, e', he', hne'⟩, _⟩
            · rw [h3]
              cases es' with
              | nil => exact absurd rfl hne
              | cons e es' => rw [h1 e List.mem_cons_self, hall e List.mem_cons_self]
            · exact absurd ((hall e he).trans (hall e' he').symm) hne'
      | cons b u =>
        obtain ⟨y, hty, hly⟩ := (hs.next x s b u hPx hsx).1 hl
        have hmem : To l.branches b (i, y) := (hto b (i, y)).2 ⟨x, s, hi, hsx, hty⟩
        rw [List.cons_append]
        rcases hcons b with ⟨_, h2⟩ | ⟨p, bs, es', t', hm, hb, hne, hes, hg, heq⟩
        · exact absurd hmem (h2 _)
        · rw [heq]
          refine ih p es' t' hg ?_ u rest i y ((hes _).2 hmem) hly ?_
          · intro e he
            obtain ⟨z, s', hz, hsz, ht⟩ := (hto b e).1 ((hes e).1 he)
            exact hs.keep z s' b e.2 (hP _ hz) hsz ht
          · intro p hp hpre e he hei hV
            obtain ⟨z, s', hz, hsz, ht⟩ := (hto b e).1 ((hes e).1 he)
            refine hv p hp hpre _ hz hei ?_
            exact (hs.view z s' b (u ++ p) (hP _ hz) hsz).2 ⟨e.2, ht, hV⟩

/-- Two alternatives are not both viable after `depth` bytes. -/
theorem grow_short (hs : Sem m n P L V) (ho : ord.Valid) : ∀ (depth : Nat) (path : List Nat)
    (es : LevelBranch) (t : MatchTree), Level.grow m ord n depth path es = .ok (some t) →
    (∀ e ∈ es, P e.2) → ∀ (u : List UInt8) (i j : Nat) (x y : Next), (i, x) ∈ es → (j, y) ∈ es → i ≠ j →
    V x u → V y u → u.length < depth := by
  intro depth
  induction depth with
  | zero =>
    intro path es t h hP u i j x y hi hj hij _ _
    rcases grow_cases ho h with ⟨a, h1, _, _⟩ | ⟨_, _, hd, _⟩
    · have := (h1 _ hi).symm.trans (h1 _ hj)
      exact absurd (Option.some.inj this) hij
    · cases hd
  | succ depth ih =>
    intro path es t h hP u i j x y hi hj hij hx hy
    rcases grow_cases ho h with ⟨a, h1, _, _⟩ | ⟨depth', l, hd, hok, _, hst, hto, hac, hnil, hcons⟩
    · have := (h1 _ hi).symm.trans (h1 _ hj)
      exact absurd (Option.some.inj this) hij
    · cases hd
      cases u with
      | nil => simp
      | cons b u =>
        obtain ⟨s, hsx⟩ := hst _ hi
        obtain ⟨s', hsy⟩ := hst _ hj
        obtain ⟨x', htx, hx'⟩ := (hs.view x s b u (hP _ hi) hsx).1 hx
        obtain ⟨y', hty, hy'⟩ := (hs.view y s' b u (hP _ hj) hsy).1 hy
        have hmx : To l.branches b (i, x') := (hto b (i, x')).2 ⟨x, s, hi, hsx, htx⟩
        have hmy : To l.branches b (j, y') := (hto b (j, y')).2 ⟨y, s', hj, hsy, hty⟩
        rcases hcons b with ⟨_, h2⟩ | ⟨p, bs, es', t', hm, hb, hne, hes, hg, _⟩
        · exact absurd hmx (h2 _)
        · have := ih p es' t' hg ?_ u i j x' y' ((hes _).2 hmx) ((hes _).2 hmy) hij hx' hy'
          · simp only [List.length_cons]; omega
          · intro e he
            obtain ⟨z, s', hz, hsz, ht⟩ := (hto b e).1 ((hes e).1 he)
            exact hs.keep z s' b e.2 (hP _ hz) hsz ht

/-- What the tree chooses is viable: it chooses an alternative that is viable for some beginning of the
input.  If the alternative was chosen because it is complete there, no alternative is viable with one byte more. -/
theorem grow_viable (hs : Sem m n P L V) (ho : ord.Valid) : ∀ (depth : Nat) (path : List Nat)
    (es : LevelBranch) (t : MatchTree), Level.grow m ord n depth path es = .ok (some t) →
    (∀ e ∈ es, P e.2) → ∀ (w : List UInt8) (i : Nat), t.matchesBytes w = some i →
    ∃ u rest x, w = u ++ rest ∧ (i, x) ∈ es ∧ V x u ∧
      ((L x u ∧ ∀ b r, rest = b :: r → ∀ j y, (j, y) ∈ es → ¬ V y (u ++ [b])) ∨ ∀ j y, (j, y) ∈ es → V y u → j = i) := by
  intro depth
  induction depth with
  | zero =>
    intro path es t h hP w i hw
    rcases grow_cases ho h with ⟨a, h1, h2, h3⟩ | ⟨_, _, hd, _⟩
    · rw [h3] at hw
      cases es with
      | nil => rw [h2 rfl] at hw; cases hw
      | cons e es =>
        have := h1 e List.mem_cons_self
        rw [hw] at this
        cases this
        refine ⟨[], w, e.2, rfl, List.mem_cons_self, hs.live _ (hP _ List.mem_cons_self), .inr ?_⟩
        intro j y hj _
        have := h1 _ hj
        rw [hw] at this
        exact (Option.some.inj this).symm
    · cases hd
  | succ depth ih =>
    intro path es t h hP w i hw
    rcases grow_cases ho h with ⟨a, h1, h2, h3⟩ | ⟨depth', l, hd, hok, _, hst, hto, hac, hnil, hcons⟩
    · rw [h3] at hw
      cases es with
      | nil => rw [h2 rfl] at hw; cases hw
      | cons e es =>
        have := h1 e List.mem_cons_self
        rw [hw] at this
        cases this
        refine ⟨[], w, e.2, rfl, List.mem_cons_self, hs.live _ (hP _ List.mem_cons_self), .inr ?_⟩
        intro j y hj _
        have := h1 _ hj
        rw [hw] at this
        exact (Option.some.inj this).symm
    · cases hd
      have hacc : l.accept = some i → (∀ b r, w = b :: r → ∀ e, ¬ To l.branches b e) →
          ∃ u rest x, w = u ++ rest ∧ (i, x) ∈ es ∧ V x u ∧
          ((L x u ∧ ∀ b r, rest = b :: r → ∀ j y, (j, y) ∈ es → ¬ V y (u ++ [b])) ∨
            ∀ j y, (j, y) ∈ es → V y u → j = i) := by
        intro ha hno
        obtain ⟨x, s, hx, hsx, hax⟩ := (hac i).1 ha
        refine ⟨[], w, x, rfl, hx, hs.live _ (hP _ hx), .inl ⟨(hs.accept x s (hP _ hx) hsx).1 hax, ?_⟩⟩
        intro b r hr j y hy hv
        obtain ⟨s', hsy⟩ := hst _ hy
        obtain ⟨z, hz, _⟩ := (hs.view y s' b [] (hP _ hy) hsy).1 hv
        exact hno b r hr _ ((hto b (j, z)).2 ⟨y, s', hy, hsy, hz⟩)
      cases w with
      | nil => rw [hnil] at hw; exact hacc hw nofun
      | cons b w =>
        rcases hcons b with ⟨h1, h2⟩ | ⟨p, bs, es', t', hm, hb, hne, hes, hg, heq⟩
        · rw [h1] at hw; exact hacc hw fun b' r hr e => by cases hr; exact h2 e
        · rw [heq] at hw
          obtain ⟨u, rest, y, rfl, hy, hv, hor⟩ := ih p es' t' hg (fun e he => by
            obtain ⟨z, s', hz, hsz, ht⟩ := (hto b e).1 ((hes e).1 he)
            exact hs.keep z s' b e.2 (hP _ hz) hsz ht) w i hw
          obtain ⟨x, s, hx, hsx, hty⟩ := (hto b (i, y)).1 ((hes _).1 hy)
          refine ⟨b :: u, rest, x, rfl, hx, (hs.view x s b u (hP _ hx) hsx).2 ⟨y, hty, hv⟩, ?_⟩
          rcases hor with ⟨hl, hno⟩ | hor
          · refine .inl ⟨(hs.next x s b u (hP _ hx) hsx).2 ⟨y, hty, hl⟩, ?_⟩
            intro b' r hr j z hz hvz
            obtain ⟨s', hsz⟩ := hst _ hz
            obtain ⟨z', htz, hvz'⟩ := (hs.view z s' b (u ++ [b']) (hP _ hz) hsz).1 hvz
            exact hno b' r hr j z' ((hes _).2 ((hto b (j, z')).2 ⟨z, s', hz, hsz, htz⟩)) hvz'
          · right
            intro j z hz hvz
            obtain ⟨s', hsz⟩ := hst _ hz
            obtain ⟨z', htz, hvz'⟩ := (hs.view z s' b u (hP _ hz) hsz).1 hvz
            exact hor j z' ((hes _).2 ((hto b (j, z')).2 ⟨z, s', hz, hsz, htz⟩)) hvz'

/-- The choice depends on no more than `depth` bytes. -/
theorem grow_take (ho : ord.Valid) : ∀ (depth : Nat) (path : List Nat) (es : LevelBranch) (t : MatchTree),
    Level.grow m ord n depth path es = .ok (some t) → ∀ w, t.matchesBytes w = t.matchesBytes (w.take depth) := by
  intro depth
  induction depth with
  | zero =>
    intro path es t h w
    rcases grow_cases ho h with ⟨a, _, _, h3⟩ | ⟨_, _, hd, _⟩
    · rw [h3, h3]
    · cases hd
  | succ depth ih =>
    intro path es t h w
    rcases grow_cases ho h with ⟨a, _, _, h3⟩ | ⟨depth', l, hd, hok, _, hst, hto, hac, hnil, hcons⟩
    · rw [h3, h3]
    · cases hd
      cases w with
      | nil => rfl
      | cons b w =>
        rw [List.take_succ_cons]
        rcases hcons b with ⟨h1, _⟩ | ⟨p, bs, es', t', hm, hb, hne, hes, hg, heq⟩
        · rw [h1, h1]
        · rw [heq, heq, ← ih p es' t' hg]

end Tree
end Doodle
