import Verif.Model.TypedCompile
import Verif.Props.ByteSet

/-!
Steps of prefix trees, byte by byte: which continuation a byte leads to after the operations on steps.  The
continuations are of any type.
-/

namespace Doodle
namespace GTree

open ByteSet (C01_contains_full C01_contains_intersection C01_contains_difference C01_isEmpty)

variable {N : Type}

theorem contains_inter (s t : ByteSet) (b : UInt8) :
    (s.intersection t).contains b = (s.contains b && t.contains b) := by
  rw [Bool.eq_iff_iff, C01_contains_intersection, Bool.and_eq_true]

theorem contains_diff (s t : ByteSet) (b : UInt8) :
    (s.difference t).contains b = (s.contains b && !t.contains b) := by
  rw [Bool.eq_iff_iff, C01_contains_difference, Bool.and_eq_true, Bool.not_eq_true', Bool.not_eq_true]

theorem empty_iff (s : ByteSet) : s.isEmpty = true ↔ ∀ b, s.contains b = false := by
  rw [C01_isEmpty]; simp only [Bool.not_eq_true]

theorem nonempty_of (s : ByteSet) (h : ¬ s.isEmpty = true) : ∃ b, s.contains b = true := by
  rw [C01_isEmpty] at h
  exact Classical.byContradiction fun hn => h fun b hb => hn ⟨b, hb⟩

/-- the continuation that a byte leads to -/
def atB : List (ByteSet × N) → UInt8 → Option N
  | [], _ => none
  | (bs, x) :: rest, b => if bs.contains b then some x else atB rest b

/-- no byte is in two branches -/
def Disj : List (ByteSet × N) → Prop
  | [] => True
  | (bs, _) :: rest => (∀ b, bs.contains b = true → atB rest b = none) ∧ Disj rest

/-- no branch is without bytes -/
def NE (l : List (ByteSet × N)) : Prop := ∀ p ∈ l, ∃ b, p.1.contains b = true

theorem atB_append (l l' : List (ByteSet × N)) (b : UInt8) : atB (l ++ l') b = (atB l b).or (atB l' b) := by
  induction l with
  | nil => simp [atB]
  | cons p l ih =>
    obtain ⟨bs, x⟩ := p
    simp only [List.cons_append, atB, ih]
    split <;> simp

theorem Disj.append {l l' : List (ByteSet × N)} (h : Disj l) (h' : Disj l')
    (hd : ∀ b, atB l b = none ∨ atB l' b = none) : Disj (l ++ l') := by
  induction l with
  | nil => exact h'
  | cons p l ih =>
    obtain ⟨bs, x⟩ := p
    refine ⟨?_, ih h.2 fun b => ?_⟩
    · intro b hb
      show atB (l ++ l') b = none
      rw [atB_append, h.1 b hb]
      rcases hd b with hx | hx
      · simp [atB, hb] at hx
      · simp [hx]
    · rcases hd b with hx | hx
      · left
        simp only [atB] at hx
        split at hx
        · cases hx
        · exact hx
      · exact .inr hx

theorem NE.append {l l' : List (ByteSet × N)} (h : NE l) (h' : NE l') : NE (l ++ l') := by
  intro p hp
  rcases List.mem_append.1 hp with hp | hp
  · exact h p hp
  · exact h' p hp

theorem NE.nil_iff {l : List (ByteSet × N)} (h : NE l) : l = [] ↔ ∀ b, atB l b = none := by
  cases l with
  | nil => simp [atB]
  | cons p l =>
    constructor
    · intro h; cases h
    · intro ha
      obtain ⟨b, hb⟩ := h p List.mem_cons_self
      have := ha b
      obtain ⟨bs, x⟩ := p
      simp only [atB, hb, if_true] at this
      cases this

theorem atB_to {l : List (ByteSet × N)} (h : Disj l) (b : UInt8) (x : N) :
    atB l b = some x ↔ ∃ bs, (bs, x) ∈ l ∧ bs.contains b = true := by
  induction l with
  | nil => simp [atB]
  | cons p l ih =>
    obtain ⟨bs, y⟩ := p
    simp only [atB]
    cases hb : bs.contains b with
    | true =>
      have h0 := h.1 b hb
      simp only [if_true, Option.some.injEq]
      constructor
      · rintro rfl; exact ⟨bs, List.mem_cons_self, hb⟩
      · rintro ⟨bs', hm, hb'⟩
        rcases List.mem_cons.1 hm with hm | hm
        · cases hm; rfl
        · have := (ih h.2).2 ⟨bs', hm, hb'⟩
          rw [h0] at this; cases this
    | false =>
      simp only [Bool.false_eq_true, if_false]
      rw [ih h.2]
      constructor
      · rintro ⟨bs', hm, hb'⟩; exact ⟨bs', List.mem_cons_of_mem _ hm, hb'⟩
      · rintro ⟨bs', hm, hb'⟩
        rcases List.mem_cons.1 hm with hm | hm
        · cases hm; rw [hb] at hb'; cases hb'
        · exact ⟨bs', hm, hb'⟩

/-- what `splitBranches` does, byte by byte -/
structure Split (K : Conts N) (next : N) (bs : ByteSet) (l : List (ByteSet × N))
    (r : List (ByteSet × N) × ByteSet × List (ByteSet × N)) : Prop where
  d1 : Disj r.1
  d2 : Disj r.2.2
  hit : ∀ b, bs.contains b = true → atB r.1 b = (atB l b).map (K.union · next) ∧ atB r.2.2 b = none
  miss : ∀ b, bs.contains b = false →
    (atB r.1 b = atB l b ∧ atB r.2.2 b = none) ∨ (atB r.1 b = none ∧ atB r.2.2 b = atB l b)
  rest : ∀ b, r.2.1.contains b = (bs.contains b && (atB l b).isNone)
  n1 : NE l → NE r.1
  n2 : NE l → NE r.2.2

theorem split (K : Conts N) (next : N) : ∀ (l : List (ByteSet × N)) (bs : ByteSet), Disj l →
    Split K next bs l (GStep.splitBranches K next bs l)
  | [], bs, _ => by
    refine ⟨trivial, trivial, ?_, ?_, ?_, fun h => h, fun h => h⟩ <;> simp [GStep.splitBranches, atB]
  | (bs0, x0) :: l, bs, h => by
    obtain ⟨h0, hd⟩ := h
    simp only [GStep.splitBranches]
    split
    · next he =>
      rw [empty_iff] at he
      have he : ∀ b, bs0.contains b = true → bs.contains b = false := by
        intro b hb
        have := he b
        rw [contains_inter, hb, Bool.true_and] at this
        exact this
      have ih := split K next l bs hd
      have hno : ∀ b, bs0.contains b = true → atB (GStep.splitBranches K next bs l).1 b = none ∧
          atB (GStep.splitBranches K next bs l).2.2 b = none := by
        intro b hb
        rcases ih.miss b (he b hb) with ⟨h1, h2⟩ | ⟨h1, h2⟩
        · exact ⟨by rw [h1, h0 b hb], h2⟩
        · exact ⟨h1, by rw [h2, h0 b hb]⟩
      refine ⟨⟨fun b hb => (hno b hb).1, ih.d1⟩, ih.d2, ?_, ?_, ?_, ?_, ?_⟩
      · intro b hb
        have hb0 : bs0.contains b = false := by
          cases hx : bs0.contains b with
          | true => rw [he b hx] at hb; cases hb
          | false => rfl
        simp only [atB, hb0, Bool.false_eq_true, if_false]
        exact ih.hit b hb
      · intro b hb
        cases hb0 : bs0.contains b with
        | true => simp only [atB, hb0, if_true]; exact .inl ⟨trivial, (hno b hb0).2⟩
        | false => simp only [atB, hb0, Bool.false_eq_true, if_false]; exact ih.miss b hb
      · intro b
        rw [ih.rest b]
        cases hb0 : bs0.contains b with
        | true => simp [he b hb0]
        | false => simp only [atB, hb0, Bool.false_eq_true, if_false]
      · intro hn p hp
        rcases List.mem_cons.1 hp with rfl | hp
        · exact hn _ List.mem_cons_self
        · exact ih.n1 (fun q hq => hn q (List.mem_cons_of_mem _ hq)) p hp
      · intro hn; exact ih.n2 fun q hq => hn q (List.mem_cons_of_mem _ hq)
    · next hne =>
      have ih := split K next l (bs.difference (bs0.intersection bs)) hd
      have hc : ∀ b, (bs.difference (bs0.intersection bs)).contains b = (bs.contains b && !bs0.contains b) := by
        intro b
        rw [contains_diff, contains_inter]
        cases bs.contains b <;> cases bs0.contains b <;> rfl
      have hno : ∀ b, bs0.contains b = true →
          atB (GStep.splitBranches K next (bs.difference (bs0.intersection bs)) l).1 b = none ∧
          atB (GStep.splitBranches K next (bs.difference (bs0.intersection bs)) l).2.2 b = none := by
        intro b hb
        rcases ih.miss b (by rw [hc, hb]; simp) with ⟨h1, h2⟩ | ⟨h1, h2⟩
        · exact ⟨by rw [h1, h0 b hb], h2⟩
        · exact ⟨h1, by rw [h2, h0 b hb]⟩
      have hq : ∀ b, atB (if (bs0.difference bs).isEmpty then
            (GStep.splitBranches K next (bs.difference (bs0.intersection bs)) l).2.2
          else (bs0.difference bs, x0) :: (GStep.splitBranches K next (bs.difference (bs0.intersection bs)) l).2.2) b =
          if bs0.contains b && !bs.contains b then some x0
          else atB (GStep.splitBranches K next (bs.difference (bs0.intersection bs)) l).2.2 b := by
        intro b
        split
        · next he =>
          have := (empty_iff _).1 he b
          rw [contains_diff] at this
          rw [this]; rfl
        · simp only [atB, contains_diff]
      refine ⟨⟨?_, ih.d1⟩, ?_, ?_, ?_, ?_, ?_, ?_⟩
      · intro b hb
        rw [contains_inter, Bool.and_eq_true] at hb
        exact (hno b hb.1).1
      · split
        · exact ih.d2
        · refine ⟨?_, ih.d2⟩
          intro b hb
          rw [contains_diff, Bool.and_eq_true] at hb
          exact (hno b hb.1).2
      · intro b hb
        rw [hq b]
        simp only [atB, contains_inter, hb, Bool.and_true, Bool.not_true, Bool.and_false, Bool.false_eq_true,
          if_false]
        cases hb0 : bs0.contains b with
        | true => simp only [if_true, Option.map_some]; exact ⟨trivial, (hno b hb0).2⟩
        | false =>
          simp only [Bool.false_eq_true, if_false]
          exact ih.hit b (by rw [hc, hb, hb0]; rfl)
      · intro b hb
        rw [hq b]
        simp only [atB, contains_inter, hb, Bool.and_false, Bool.not_false, Bool.and_true, Bool.false_eq_true,
          if_false]
        cases hb0 : bs0.contains b with
        | true => simp only [if_true]; exact .inr ⟨(hno b hb0).1, trivial⟩
        | false =>
          simp only [Bool.false_eq_true, if_false]
          exact ih.miss b (by rw [hc, hb]; rfl)
      · intro b
        rw [ih.rest b, hc b]
        cases hb0 : bs0.contains b with
        | true => simp [atB, hb0]
        | false => simp [atB, hb0]
      · intro hn p hp
        rcases List.mem_cons.1 hp with rfl | hp
        · exact nonempty_of _ hne
        · exact ih.n1 (fun q hq => hn q (List.mem_cons_of_mem _ hq)) p hp
      · intro hn p hp
        split at hp
        · exact ih.n2 (fun q hq => hn q (List.mem_cons_of_mem _ hq)) p hp
        · next he =>
          rcases List.mem_cons.1 hp with rfl | hp
          · exact nonempty_of _ he
          · exact ih.n2 (fun q hq => hn q (List.mem_cons_of_mem _ hq)) p hp

/-- the branches of a step are disjoint, and none is empty -/
structure Wf (s : GStep N) : Prop where
  disj : Disj s.branches
  ne : NE s.branches

/-- the continuation a byte leads to from a step -/
def to (s : GStep N) (b : UInt8) : Option N := atB s.branches b

/-- both alternatives -/
def orUnion (K : Conts N) : Option N → Option N → Option N
  | some x, some y => some (K.union x y)
  | some x, none => some x
  | none, o => o

theorem unionBranch_wf (K : Conts N) {s : GStep N} (h : Wf s) (bs : ByteSet) (next : N) :
    Wf (s.unionBranch K bs next) ∧ ∀ b, to (s.unionBranch K bs next) b =
      orUnion K (to s b) (if bs.contains b then some next else none) := by
  have hs := split K next s.branches bs h.disj
  have hmid : ∀ b, atB (if (GStep.splitBranches K next bs s.branches).2.1.isEmpty then []
      else [((GStep.splitBranches K next bs s.branches).2.1, next)]) b =
      if bs.contains b && (atB s.branches b).isNone then some next else none := by
    intro b
    split
    · next he =>
      have := (empty_iff _).1 he b
      rw [hs.rest] at this
      rw [this]; rfl
    · simp only [atB, hs.rest]
  refine ⟨⟨?_, ?_⟩, ?_⟩
  · refine Disj.append (Disj.append hs.d1 ?_ ?_) hs.d2 ?_
    · split
      · trivial
      · exact ⟨fun _ _ => rfl, trivial⟩
    · intro b
      rw [hmid b]
      cases hb : bs.contains b with
      | false => exact .inr rfl
      | true =>
        cases ha : atB s.branches b with
        | some y => exact .inr rfl
        | none => left; rw [(hs.hit b hb).1, ha]; rfl
    · intro b
      rw [atB_append, hmid b]
      cases hb : bs.contains b with
      | true => exact .inr (hs.hit b hb).2
      | false =>
        rcases hs.miss b hb with ⟨_, h2⟩ | ⟨h1, _⟩
        · exact .inr h2
        · left; rw [h1]; rfl
  · refine NE.append (NE.append (hs.n1 h.ne) ?_) (hs.n2 h.ne)
    split
    · intro p hp; cases hp
    · next he =>
      intro p hp
      rw [List.mem_singleton] at hp
      subst hp
      exact nonempty_of _ he
  · intro b
    simp only [to, GStep.unionBranch]
    rw [atB_append, atB_append, hmid b]
    cases hb : bs.contains b with
    | true =>
      rw [(hs.hit b hb).1, (hs.hit b hb).2]
      cases atB s.branches b <;> simp [orUnion]
    | false =>
      rcases hs.miss b hb with ⟨h1, h2⟩ | ⟨h1, h2⟩
      · rw [h1, h2]
        cases atB s.branches b <;> simp [orUnion]
      · rw [h1, h2]
        cases atB s.branches b <;> simp [orUnion]

theorem unionBranches_wf (K : Conts N) : ∀ (l : List (ByteSet × N)) {s : GStep N}, Wf s → Disj l →
    Wf (s.unionBranches K l) ∧ (s.unionBranches K l).accept = s.accept ∧
      ∀ b, to (s.unionBranches K l) b = orUnion K (to s b) (atB l b)
  | [], s, h, _ => ⟨h, rfl, fun b => by simp only [GStep.unionBranches, atB]; cases to s b <;> rfl⟩
  | (bs, x) :: l, s, h, hd => by
    have h1 := unionBranch_wf K h bs x
    have ih := unionBranches_wf K l h1.1 hd.2
    refine ⟨ih.1, ih.2.1, fun b => ?_⟩
    simp only [GStep.unionBranches]
    rw [ih.2.2 b, h1.2 b]
    simp only [atB]
    cases hb : bs.contains b with
    | true => simp only [if_true]; rw [hd.1 b hb]; cases to s b <;> rfl
    | false =>
      simp only [Bool.false_eq_true, if_false]
      cases to s b <;> cases atB l b <;> rfl

theorem union_wf (K : Conts N) {s t : GStep N} (h : Wf s) (h' : Wf t) :
    Wf (s.union K t) ∧ (s.union K t).accept = (s.accept || t.accept) ∧
      ∀ b, to (s.union K t) b = orUnion K (to s b) (to t b) := by
  have := unionBranches_wf K t.branches (s := { s with accept := s.accept || t.accept }) ⟨h.disj, h.ne⟩ h'.disj
  exact this

theorem peekBranch_at (K : Conts N) (bs : ByteSet) (x : N) : ∀ (l : List (ByteSet × N)), Disj l →
    Disj (GStep.peekBranch K bs x l) ∧ NE (GStep.peekBranch K bs x l) ∧
      ∀ b, atB (GStep.peekBranch K bs x l) b = if bs.contains b then (atB l b).map (K.peek x) else none
  | [], _ => ⟨trivial, (fun p hp => nomatch hp), fun b => by simp [GStep.peekBranch, atB]⟩
  | (bs2, y) :: l, h => by
    have ih := peekBranch_at K bs x l h.2
    simp only [GStep.peekBranch]
    split
    · next he =>
      refine ⟨ih.1, ih.2.1, fun b => ?_⟩
      rw [ih.2.2 b]
      have := (empty_iff _).1 he b
      rw [contains_inter] at this
      simp only [atB]
      cases hb : bs.contains b with
      | false => rfl
      | true => rw [hb, Bool.true_and] at this; simp [this]
    · next he =>
      refine ⟨⟨?_, ih.1⟩, ?_, fun b => ?_⟩
      · intro b hb
        rw [contains_inter, Bool.and_eq_true] at hb
        rw [ih.2.2 b, h.1 b hb.2]; simp
      · intro p hp
        rcases List.mem_cons.1 hp with rfl | hp
        · exact nonempty_of _ he
        · exact ih.2.1 p hp
      · simp only [atB, contains_inter, ih.2.2 b]
        cases bs.contains b <;> cases bs2.contains b <;> simp

theorem flat_at (g : ByteSet × N → List (ByteSet × N)) (e : N → UInt8 → Option N)
    (hg : ∀ p, Disj (g p) ∧ NE (g p) ∧ ∀ b, atB (g p) b = if p.1.contains b then e p.2 b else none) :
    ∀ (l : List (ByteSet × N)), Disj l → Disj (l.flatMap g) ∧ NE (l.flatMap g) ∧
      ∀ b, atB (l.flatMap g) b = (atB l b).bind (e · b)
  | [], _ => ⟨trivial, (fun p hp => nomatch hp), fun b => by simp [atB]⟩
  | (bs, x) :: l, h => by
    have ih := flat_at g e hg l h.2
    have h1 := hg (bs, x)
    simp only [List.flatMap_cons]
    refine ⟨Disj.append h1.1 ih.1 fun b => ?_, NE.append h1.2.1 ih.2.1, fun b => ?_⟩
    · rw [h1.2.2 b, ih.2.2 b]
      cases hb : bs.contains b with
      | false => exact .inl rfl
      | true => right; rw [h.1 b hb]; rfl
    · rw [atB_append, h1.2.2 b, ih.2.2 b]
      simp only [atB]
      cases hb : bs.contains b with
      | false => simp
      | true => simp [h.1 b hb]

/-- what `peek` leads to -/
theorem peek_wf (K : Conts N) {s p : GStep N} (h : Wf s) (h' : Wf p) :
    Wf (s.peek K p) ∧ (s.peek K p).accept = (if p.accept then s.accept else false) ∧
      ∀ b, to (s.peek K p) b = if p.accept then to s b else if s.accept then to p b else
        (to s b).bind fun x => (to p b).map (K.peek x) := by
  have hf := flat_at (fun q => GStep.peekBranch K q.1 q.2 p.branches) (fun x b => (to p b).map (K.peek x))
    (fun q => peekBranch_at K q.1 q.2 p.branches h'.disj) s.branches h.disj
  unfold GStep.peek
  cases hp : p.accept with
  | true => simp only [if_true]; exact ⟨h, trivial, fun b => trivial⟩
  | false =>
    cases hs : s.accept with
    | true =>
      simp only [if_true, Bool.false_eq_true, if_false]
      exact ⟨⟨h'.disj, h'.ne⟩, trivial, fun b => rfl⟩
    | false =>
      simp only [Bool.false_eq_true, if_false]
      exact ⟨⟨hf.1, hf.2.1⟩, trivial, fun b => hf.2.2 b⟩

theorem peekNotBranch_at (K : Conts N) (bs : ByteSet) (x : N) : ∀ (l : List (ByteSet × N)) (diff : ByteSet), Disj l →
    (∀ b, (GStep.peekNotBranch K bs x diff l).2.contains b = (diff.contains b && (atB l b).isNone)) ∧
    Disj (GStep.peekNotBranch K bs x diff l).1 ∧ NE (GStep.peekNotBranch K bs x diff l).1 ∧
      ∀ b, atB (GStep.peekNotBranch K bs x diff l).1 b = if bs.contains b then (atB l b).map (K.peekNot x) else none
  | [], diff, _ => ⟨fun b => by simp [GStep.peekNotBranch, atB], trivial, (fun p hp => nomatch hp),
      fun b => by simp [GStep.peekNotBranch, atB]⟩
  | (bs2, y) :: l, diff, h => by
    have ih := peekNotBranch_at K bs x l (diff.difference bs2) h.2
    have hr : ∀ b, (GStep.peekNotBranch K bs x (diff.difference bs2) l).2.contains b =
        (diff.contains b && (atB ((bs2, y) :: l) b).isNone) := by
      intro b
      rw [ih.1 b, contains_diff]
      simp only [atB]
      cases bs2.contains b <;> simp
    simp only [GStep.peekNotBranch]
    split
    · next he =>
      refine ⟨hr, ih.2.1, ih.2.2.1, fun b => ?_⟩
      rw [ih.2.2.2 b]
      have := (empty_iff _).1 he b
      rw [contains_inter] at this
      simp only [atB]
      cases hb : bs.contains b with
      | false => rfl
      | true => rw [hb, Bool.true_and] at this; simp [this]
    · next he =>
      refine ⟨hr, ⟨?_, ih.2.1⟩, ?_, fun b => ?_⟩
      · intro b hb
        rw [contains_inter, Bool.and_eq_true] at hb
        rw [ih.2.2.2 b, h.1 b hb.2]; simp
      · intro p hp
        rcases List.mem_cons.1 hp with rfl | hp
        · exact nonempty_of _ he
        · exact ih.2.2.1 p hp
      · simp only [atB, contains_inter, ih.2.2.2 b]
        cases bs.contains b <;> cases bs2.contains b <;> simp

/-- what `peek_not` leads to -/
theorem peekNot_wf (K : Conts N) {s p : GStep N} (h : Wf s) (h' : Wf p) :
    Wf (s.peekNot K p) ∧ (s.peekNot K p).accept = (if p.accept then false else s.accept) ∧
      ∀ b, to (s.peekNot K p) b = if p.accept then none else
        (to s b).map fun x => match to p b with | some y => K.peekNot x y | none => x := by
  have hf := flat_at (fun b => (GStep.peekNotBranch K b.1 b.2 b.1 p.branches).1 ++
      (if (GStep.peekNotBranch K b.1 b.2 b.1 p.branches).2.isEmpty then []
        else [((GStep.peekNotBranch K b.1 b.2 b.1 p.branches).2, b.2)]))
    (fun x b => some (match to p b with | some y => K.peekNot x y | none => x))
    (by
      intro q
      have h1 := peekNotBranch_at K q.1 q.2 p.branches q.1 h'.disj
      have hmid : ∀ b, atB (if (GStep.peekNotBranch K q.1 q.2 q.1 p.branches).2.isEmpty then []
          else [((GStep.peekNotBranch K q.1 q.2 q.1 p.branches).2, q.2)]) b =
          if q.1.contains b && (atB p.branches b).isNone then some q.2 else none := by
        intro b
        split
        · next he =>
          have := (empty_iff _).1 he b
          rw [h1.1] at this
          rw [this]; rfl
        · simp only [atB, h1.1]
      refine ⟨Disj.append h1.2.1 ?_ fun b => ?_, NE.append h1.2.2.1 ?_, fun b => ?_⟩
      · split
        · trivial
        · exact ⟨fun _ _ => rfl, trivial⟩
      · rw [hmid b, h1.2.2.2 b]
        cases q.1.contains b with
        | false => exact .inl rfl
        | true => cases atB p.branches b with
          | none => exact .inl rfl
          | some y => exact .inr rfl
      · split
        · intro p hp; cases hp
        · next he =>
          intro p hp
          rw [List.mem_singleton] at hp
          subst hp
          exact nonempty_of _ he
      · rw [atB_append, hmid b, h1.2.2.2 b]
        simp only [to]
        cases q.1.contains b <;> cases atB p.branches b <;> simp)
    s.branches h.disj
  unfold GStep.peekNot
  cases hp : p.accept with
  | true => simp only [if_true]; exact ⟨⟨trivial, (fun p hp => nomatch hp)⟩, trivial, fun b => rfl⟩
  | false =>
    simp only [Bool.false_eq_true, if_false]
    refine ⟨⟨hf.1, hf.2.1⟩, trivial, fun b => (hf.2.2 b).trans ?_⟩
    simp only [to]
    cases atB s.branches b <;> rfl

/-- what a slice leads to -/
theorem inSlice_wf (K : Conts N) {s : GStep N} (h : Wf s) (n : Nat) (next : N) :
    Wf (s.inSlice K n next) ∧ (s.inSlice K n next).accept = false ∧
      ((∀ b, to s b = none) → ∀ b, to (s.inSlice K n next) b = some (K.slice (n - 1) K.empty next)) ∧
      ((¬ ∀ b, to s b = none) → ∀ b, to (s.inSlice K n next) b = (to s b).map (K.slice (n - 1) · next)) := by
  have hm : ∀ l : List (ByteSet × N), (∀ b, atB (l.map fun p => (p.1, K.slice (n - 1) p.2 next)) b =
      (atB l b).map (K.slice (n - 1) · next)) ∧
      (Disj l → Disj (l.map fun p => (p.1, K.slice (n - 1) p.2 next))) ∧
      (NE l → NE (l.map fun p => (p.1, K.slice (n - 1) p.2 next))) := by
    intro l
    induction l with
    | nil => exact ⟨fun b => rfl, fun h => h, fun h p hp => nomatch hp⟩
    | cons p l ih =>
      obtain ⟨bs, x⟩ := p
      refine ⟨fun b => ?_, fun h => ⟨fun b hb => ?_, ih.2.1 h.2⟩, fun h p hp => ?_⟩
      · simp only [List.map_cons, atB, ih.1 b]
        cases bs.contains b <;> rfl
      · rw [ih.1 b, h.1 b hb]; rfl
      · rcases List.mem_cons.1 hp with rfl | hp
        · exact h (bs, x) List.mem_cons_self
        · exact ih.2.2 (fun q hq => h q (List.mem_cons_of_mem _ hq)) p hp
  have hnil := h.ne.nil_iff
  unfold GStep.inSlice
  cases hs : s.branches with
  | nil =>
    have ha := hnil.1 hs
    simp only [List.isEmpty_nil, if_true]
    refine ⟨⟨⟨fun _ _ => rfl, trivial⟩, ?_⟩, trivial, ?_, fun hne => absurd ha hne⟩
    · intro p hp
      rw [List.mem_singleton] at hp
      subst hp
      exact ⟨0, C01_contains_full 0⟩
    · intro _ b
      simp only [to, atB, C01_contains_full, if_true]
  | cons q l =>
    have hne : ¬ ∀ b, to s b = none := fun h => by rw [hnil.2 h] at hs; cases hs
    rw [← hs]
    have he : s.branches.isEmpty = false := by rw [hs]; rfl
    simp only [he, Bool.false_eq_true, if_false]
    refine ⟨⟨(hm _).2.1 h.disj, (hm _).2.2 h.ne⟩, trivial, fun ha => absurd ha hne, fun _ b => (hm _).1 b⟩

end GTree
end Doodle
