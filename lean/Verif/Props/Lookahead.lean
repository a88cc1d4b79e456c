import Verif.Lemmas.Words
import Verif.Lemmas.TreeRefuse
import Verif.Model.Compile

/-!
C13: alternations for which a lookahead tree is built are unambiguous within the lookahead.
-/

namespace Doodle

open Tree

/-! ## Specification: runs of a single alternative -/

/-- Reading the bytes `u` one by one leads from `x` to `y`; `n` bounds the recursion of one step. -/
inductive Reads (m : Module) (n : Nat) : Next → List UInt8 → Next → Prop
  | done {x} : Reads m n x [] x
  | read {x s b bs y u z} : Next.step m n x = .ok s → (bs, y) ∈ s.branches → bs.contains b = true →
      Reads m n y u z → Reads m n x (b :: u) z

/-- After the bytes `u` the alternative `x` may be complete. -/
def AcceptsAfter (m : Module) (n : Nat) (x : Next) (u : List UInt8) : Prop :=
  ∃ y s, Reads m n x u y ∧ Next.step m n y = .ok s ∧ s.accept = true

private theorem reads_nil {m : Module} {n : Nat} {x y : Next} : Reads m n x [] y ↔ y = x :=
  ⟨fun h => by cases h; rfl, fun h => h ▸ .done⟩

private theorem reads_cons {m : Module} {n : Nat} {x z : Next} {s : Step} {b : UInt8} {u : List UInt8}
    (hs : Next.step m n x = .ok s) :
    Reads m n x (b :: u) z ↔ ∃ y, Step.To s b y ∧ Reads m n y u z := by
  constructor
  · intro h
    cases h with
    | read h1 h2 h3 h4 => rw [hs] at h1; cases h1; exact ⟨_, ⟨_, h2, h3⟩, h4⟩
  · rintro ⟨y, ⟨bs, h1, h2⟩, h3⟩
    exact .read hs h1 h2 h3

private theorem run_sem (m : Module) (n : Nat) :
    Sem m n (fun _ => True) (AcceptsAfter m n) (fun x u => ∃ y, Reads m n x u y) where
  accept x s _ hs := by
    constructor
    · intro h; exact ⟨x, s, .done, hs, h⟩
    · rintro ⟨y, s', h1, h2, h3⟩
      cases reads_nil.1 h1
      rw [hs] at h2
      cases h2
      exact h3
  next x s b u _ hs := by
    constructor
    · rintro ⟨z, s', h1, h2, h3⟩
      obtain ⟨y, h4, h5⟩ := (reads_cons hs).1 h1
      exact ⟨y, h4, z, s', h5, h2, h3⟩
    · rintro ⟨y, h4, z, s', h5, h2, h3⟩
      exact ⟨z, s', (reads_cons hs).2 ⟨y, h4, h5⟩, h2, h3⟩
  live x _ := ⟨x, .done⟩
  view x s b u _ hs := by
    constructor
    · rintro ⟨z, h1⟩
      obtain ⟨y, h4, h5⟩ := (reads_cons hs).1 h1
      exact ⟨y, h4, z, h5⟩
    · rintro ⟨y, h4, z, h5⟩
      exact ⟨z, (reads_cons hs).2 ⟨y, h4, h5⟩⟩
  keep _ _ _ _ _ _ _ := trivial

private theorem mem_initial {next : Next} : ∀ {fs : List Format} {k i : Nat} {x : Next},
    (i, x) ∈ MatchTree.initial next k fs ↔ ∃ j f, i = k + j ∧ fs[j]? = some f ∧ x = .cat f next
  | [], k, i, x => by simp [MatchTree.initial]
  | g :: fs, k, i, x => by
    simp only [MatchTree.initial, List.mem_cons, Prod.mk.injEq, mem_initial (fs := fs)]
    constructor
    · rintro (⟨rfl, rfl⟩ | ⟨j, f, rfl, h, rfl⟩)
      · exact ⟨0, g, rfl, rfl, rfl⟩
      · exact ⟨j + 1, f, by omega, by simpa using h, rfl⟩
    · rintro ⟨j, f, rfl, h, rfl⟩
      cases j with
      | zero => simp at h; exact .inl ⟨rfl, by rw [h]⟩
      | succ j => exact .inr ⟨j, f, by omega, by simpa using h, rfl⟩

theorem Tree.mem_initial0 {next : Next} {fs : List Format} {i : Nat} {x : Next} :
    (i, x) ∈ MatchTree.initial next 0 fs ↔ ∃ f, fs[i]? = some f ∧ x = .cat f next := by
  rw [mem_initial]
  constructor
  · rintro ⟨j, f, e, h, e'⟩
    obtain rfl : i = j := by omega
    exact ⟨f, h, e'⟩
  · rintro ⟨f, h, e'⟩
    exact ⟨i, f, by omega, h, e'⟩

/-! ## All formats -/

/-- The alternative chosen depends on the next 80 bytes at most. -/
theorem C13_lookahead (m : Module) (ord : HashOrder) (ho : ord.Valid) (n : Nat) (fs : List Format) (next : Next)
    (t : MatchTree) (h : MatchTree.build m ord n fs next = .ok (some t)) (c c' : ReadCtxt)
    (hc : (c.input.drop c.offset).take 80 = (c'.input.drop c'.offset).take 80) :
    t.matches c = t.matches c' := by
  unfold MatchTree.matches
  rw [grow_take ho 80 _ _ _ h, hc, ← grow_take ho 80 _ _ _ h]

/-- If a tree is built, two different alternatives never both accept after the same bytes. -/
theorem C13_unambiguous (m : Module) (ord : HashOrder) (ho : ord.Valid) (n : Nat) (fs : List Format) (next : Next)
    (t : MatchTree) (h : MatchTree.build m ord n fs next = .ok (some t)) (i j : Nat) (f g : Format)
    (hi : fs[i]? = some f) (hj : fs[j]? = some g) (hij : i ≠ j) (u : List UInt8) :
    ¬ (AcceptsAfter m n (.cat f next) u ∧ AcceptsAfter m n (.cat g next) u) := by
  rintro ⟨h1, h2⟩
  have key : ∀ k f, fs[k]? = some f → AcceptsAfter m n (.cat f next) u → t.matchesBytes u = some k := by
    intro k f hk ha
    have := grow_complete (run_sem m n) ho 80 _ _ t h (fun _ _ => trivial) u [] k _
      (mem_initial0.2 ⟨f, hk, rfl⟩) ha (fun p hp hpre => absurd (List.prefix_nil.1 hpre) hp)
    simpa using this
  exact hij (Option.some.inj ((key i f hi h1).symm.trans (key j g hj h2)))

/-- If a tree is built, at most one alternative is left after 80 bytes. -/
theorem C13_decided (m : Module) (ord : HashOrder) (ho : ord.Valid) (n : Nat) (fs : List Format) (next : Next)
    (t : MatchTree) (h : MatchTree.build m ord n fs next = .ok (some t)) (i j : Nat) (f g : Format)
    (hi : fs[i]? = some f) (hj : fs[j]? = some g) (u : List UInt8) (hu : 80 ≤ u.length) (y z : Next)
    (hy : Reads m n (.cat f next) u y) (hz : Reads m n (.cat g next) u z) : i = j := by
  by_cases hij : i = j
  · exact hij
  have := grow_short (run_sem m n) ho 80 _ _ t h (fun _ _ => trivial) u i j _ _
    (mem_initial0.2 ⟨f, hi, rfl⟩) (mem_initial0.2 ⟨g, hj, rfl⟩) hij ⟨y, hy⟩ ⟨z, hz⟩
  omega

/-- The alternative chosen is one of those given; some beginning of the remaining input is a possible
beginning of it, and is either complete for it, and then with one byte more a possible beginning of none of them, or a
possible beginning of no other alternative. -/
theorem C13_selected (m : Module) (ord : HashOrder) (ho : ord.Valid) (n : Nat) (fs : List Format) (next : Next)
    (t : MatchTree) (h : MatchTree.build m ord n fs next = .ok (some t)) (c : ReadCtxt) (i : Nat)
    (hi : t.matches c = some i) :
    ∃ f u, fs[i]? = some f ∧ u <+: c.input.drop c.offset ∧ (∃ y, Reads m n (.cat f next) u y) ∧
      ((AcceptsAfter m n (.cat f next) u ∧
          ∀ b, u ++ [b] <+: c.input.drop c.offset → ∀ g ∈ fs, ∀ z, ¬ Reads m n (.cat g next) (u ++ [b]) z) ∨
        ∀ j g z, fs[j]? = some g → Reads m n (.cat g next) u z → j = i) := by
  obtain ⟨u, rest, x, hw, hx, hv, hor⟩ := grow_viable (run_sem m n) ho 80 _ _ t h (fun _ _ => trivial) _ i hi
  obtain ⟨f, hf, rfl⟩ := mem_initial0.1 hx
  refine ⟨f, u, hf, ⟨rest, hw.symm⟩, hv, ?_⟩
  rcases hor with ⟨ha, hno⟩ | hor
  · refine .inl ⟨ha, fun b ⟨r, hb⟩ g hg z hz => ?_⟩
    obtain ⟨j, hj⟩ := List.getElem?_of_mem hg
    rw [hw, List.append_assoc] at hb
    exact hno b r (List.append_cancel_left hb).symm j _ (mem_initial0.2 ⟨g, hj, rfl⟩) ⟨z, hz⟩
  · exact .inr fun j g z hj hz => hor j _ (mem_initial0.2 ⟨g, hj, rfl⟩) ⟨z, hz⟩

/-- The tree finds the alternative that accepts after some beginning of the remaining input, unless another
alternative could still begin with more of it. -/
theorem C13_found (m : Module) (ord : HashOrder) (ho : ord.Valid) (n : Nat) (fs : List Format) (next : Next)
    (t : MatchTree) (h : MatchTree.build m ord n fs next = .ok (some t)) (c : ReadCtxt) (i : Nat) (f : Format)
    (hi : fs[i]? = some f) (u : List UInt8) (hu : u <+: c.input.drop c.offset)
    (ha : AcceptsAfter m n (.cat f next) u)
    (hno : ∀ v, v <+: c.input.drop c.offset → u.length < v.length →
      ∀ j g z, fs[j]? = some g → j ≠ i → ¬ Reads m n (.cat g next) v z) :
    t.matches c = some i := by
  obtain ⟨rest, hr⟩ := hu
  unfold MatchTree.matches
  rw [← hr] at hno ⊢
  refine grow_complete (run_sem m n) ho 80 _ _ t h (fun _ _ => trivial) u rest i _
    (mem_initial0.2 ⟨f, hi, rfl⟩) ha ?_
  rintro p hp ⟨q, rfl⟩ ⟨j, x⟩ he hj ⟨z, hz⟩
  obtain ⟨g, hg, rfl⟩ := mem_initial0.1 he
  exact hno (u ++ p) ⟨q, by rw [List.append_assoc]⟩ (by
    have : 0 < p.length := List.length_pos_iff.2 hp
    rw [List.length_append]; omega) j g z hg hj hz

/-- A tree is refused only for a reason: two alternatives both accept after the same bytes, or both can begin with the
same 80 bytes. -/
theorem C13_refused (m : Module) (ord : HashOrder) (ho : ord.Valid) (n : Nat) (fs : List Format) (next : Next)
    (h : MatchTree.build m ord n fs next = .ok none) :
    ∃ (i j : Nat) (f g : Format) (u : List UInt8), i ≠ j ∧ fs[i]? = some f ∧ fs[j]? = some g ∧
      ((AcceptsAfter m n (.cat f next) u ∧ AcceptsAfter m n (.cat g next) u) ∨
        (u.length = 80 ∧ (∃ y, Reads m n (.cat f next) u y) ∧ ∃ z, Reads m n (.cat g next) u z)) := by
  obtain ⟨i, j, x, y, u, hij, hi, hj, hor⟩ := grow_none (run_sem m n) ho 80 _ _ h (fun _ _ => trivial)
  obtain ⟨f, hf, rfl⟩ := mem_initial0.1 hi
  obtain ⟨g, hg, rfl⟩ := mem_initial0.1 hj
  exact ⟨i, j, f, g, u, hij, hf, hg, hor⟩

/-! ## Plain formats: in terms of the byte strings the formats describe -/

theorem initial_plain {m : Module} {E : Nat → Bool} {fs : List Format} {next : Next}
    (hf : ∀ f ∈ fs, f.Plain m E m.items.length next.isDone)
    (hn : next.Plain m E) :
    ∀ e ∈ MatchTree.initial next 0 fs, e.2.Plain m E := by
  rintro ⟨i, x⟩ he
  obtain ⟨f, h, rfl⟩ := mem_initial0.1 he
  exact ⟨hf f (List.mem_of_getElem? h), hn⟩

/-- If a tree is built for plain alternatives, no byte string is a word of two of them, each followed by
what comes next. -/
theorem C13_words_disjoint (m : Module) (E : Nat → Bool) (hm : m.Plain E) (ord : HashOrder) (ho : ord.Valid) (n : Nat)
    (fs : List Format) (next : Next) (hf : ∀ f ∈ fs, f.Plain m E m.items.length next.isDone)
    (hn : next.Plain m E)
    (t : MatchTree) (h : MatchTree.build m ord n fs next = .ok (some t)) (i j : Nat) (f g : Format)
    (hi : fs[i]? = some f) (hj : fs[j]? = some g) (hij : i ≠ j) (u : List UInt8) :
    ¬ (Cat (Word m f) (Follow m next) u ∧ Cat (Word m g) (Follow m next) u) := by
  rintro ⟨h1, h2⟩
  have key : ∀ k f, fs[k]? = some f → Cat (Word m f) (Follow m next) u → t.matchesBytes u = some k := by
    intro k f hk ha
    have := grow_complete (follow_sem hm n) ho 80 _ _ t h (initial_plain hf hn) u [] k _
      (mem_initial0.2 ⟨f, hk, rfl⟩) ha (fun p hp hpre => absurd (List.prefix_nil.1 hpre) hp)
    simpa using this
  exact hij (Option.some.inj ((key i f hi h1).symm.trans (key j g hj h2)))

/-- If a tree is built for plain alternatives, no word of one agrees with a word of another in the first
80 bytes. -/
theorem C13_words_within_80 (m : Module) (E : Nat → Bool) (hm : m.Plain E) (ord : HashOrder) (ho : ord.Valid) (n : Nat)
    (fs : List Format) (next : Next) (hf : ∀ f ∈ fs, f.Plain m E m.items.length next.isDone)
    (hn : next.Plain m E)
    (t : MatchTree) (h : MatchTree.build m ord n fs next = .ok (some t)) (i j : Nat) (f g : Format)
    (hi : fs[i]? = some f) (hj : fs[j]? = some g) (hij : i ≠ j) (u v w : List UInt8) (hu : 80 ≤ u.length)
    (hv : Cat (Word m f) (Follow m next) (u ++ v)) : ¬ Cat (Word m g) (Follow m next) (u ++ w) := by
  intro hw
  have := grow_short (follow_sem hm n) ho 80 _ _ t h (initial_plain hf hn) u i j _ _
    (mem_initial0.2 ⟨f, hi, rfl⟩) (mem_initial0.2 ⟨g, hj, rfl⟩) hij ⟨v, hv⟩ ⟨w, hw⟩
  omega

/-- When the construction ends, a tree is built for plain alternatives exactly if no two of them, each followed by what
comes next, share a word, or a beginning of words of 80 bytes. -/
theorem C13_words_built_iff (m : Module) (E : Nat → Bool) (hm : m.Plain E) (ord : HashOrder) (ho : ord.Valid) (n : Nat)
    (fs : List Format) (next : Next) (hf : ∀ f ∈ fs, f.Plain m E m.items.length next.isDone)
    (hn : next.Plain m E) (r : Option MatchTree) (h : MatchTree.build m ord n fs next = .ok r) :
    (∃ t, r = some t) ↔ ∀ (i j : Nat) (f g : Format), fs[i]? = some f → fs[j]? = some g → i ≠ j → ∀ u : List UInt8,
      ¬ (Cat (Word m f) (Follow m next) u ∧ Cat (Word m g) (Follow m next) u) ∧
      (u.length = 80 → ¬ (Viable (Cat (Word m f) (Follow m next)) u ∧ Viable (Cat (Word m g) (Follow m next)) u)) := by
  constructor
  · rintro ⟨t, rfl⟩ i j f g hi hj hij u
    refine ⟨C13_words_disjoint m E hm ord ho n fs next hf hn t h i j f g hi hj hij u, ?_⟩
    rintro hu ⟨⟨v, hv⟩, w, hw⟩
    exact C13_words_within_80 m E hm ord ho n fs next hf hn t h i j f g hi hj hij u v w (by omega) hv hw
  · intro hall
    cases r with
    | some t => exact ⟨t, rfl⟩
    | none =>
      obtain ⟨i, j, x, y, u, hij, hi, hj, hor⟩ := grow_none (follow_sem hm n) ho 80 _ _ h (initial_plain hf hn)
      obtain ⟨f, hf, rfl⟩ := mem_initial0.1 hi
      obtain ⟨g, hg, rfl⟩ := mem_initial0.1 hj
      have := hall i j f g hf hg hij u
      rcases hor with ⟨h1, h2⟩ | ⟨hl, h1, h2⟩
      · exact absurd ⟨h1, h2⟩ this.1
      · exact absurd ⟨h1, h2⟩ (this.2 hl)

/-- The alternative chosen among plain ones: some beginning of the remaining input is a beginning of a word of it, and is
either a word of it, and then with one byte more a beginning of a word of none of them, or a beginning of a word of no
other. -/
theorem C13_words_selected (m : Module) (E : Nat → Bool) (hm : m.Plain E) (ord : HashOrder) (ho : ord.Valid) (n : Nat)
    (fs : List Format) (next : Next) (hf : ∀ f ∈ fs, f.Plain m E m.items.length next.isDone)
    (hn : next.Plain m E)
    (t : MatchTree) (h : MatchTree.build m ord n fs next = .ok (some t)) (c : ReadCtxt) (i : Nat)
    (hi : t.matches c = some i) :
    ∃ f u, fs[i]? = some f ∧ u <+: c.input.drop c.offset ∧ Viable (Cat (Word m f) (Follow m next)) u ∧
      ((Cat (Word m f) (Follow m next) u ∧
          ∀ b, u ++ [b] <+: c.input.drop c.offset → ∀ g ∈ fs, ¬ Viable (Cat (Word m g) (Follow m next)) (u ++ [b])) ∨
        ∀ (j : Nat) g, fs[j]? = some g → Viable (Cat (Word m g) (Follow m next)) u → j = i) := by
  obtain ⟨u, rest, x, hw, hx, hv, hor⟩ := grow_viable (follow_sem hm n) ho 80 _ _ t h (initial_plain hf hn) _ i hi
  obtain ⟨f, hf, rfl⟩ := mem_initial0.1 hx
  refine ⟨f, u, hf, ⟨rest, hw.symm⟩, hv, ?_⟩
  rcases hor with ⟨ha, hno⟩ | hor
  · refine .inl ⟨ha, fun b ⟨r, hb⟩ g hg hz => ?_⟩
    obtain ⟨j, hj⟩ := List.getElem?_of_mem hg
    rw [hw, List.append_assoc] at hb
    exact hno b r (List.append_cancel_left hb).symm j _ (mem_initial0.2 ⟨g, hj, rfl⟩) hz
  · exact .inr fun j g hj hz => hor j _ (mem_initial0.2 ⟨g, hj, rfl⟩) hz

/-! ## Cases that meet the hypotheses -/

private def ab : Format := .tuple [.byte (ByteSet.fromIter [97]), .byte (ByteSet.fromIter [98])]
private def acStar : Format := .tuple [.byte (ByteSet.fromIter [97]), .repeat_ (.byte (ByteSet.fromIter [99]))]
private def order : HashOrder := fun _ l => l

/-- The alternatives `ab` and `ac*`, followed by anything. -/
example : ∃ t, MatchTree.build .empty order 10 [ab, acStar] .empty = .ok (some t) ∧ order.Valid ∧
    t.matches ⟨[97, 98, 7], 0⟩ = some 0 ∧ t.matches ⟨[97, 99, 99], 0⟩ = some 1 ∧ t.matches ⟨[98], 0⟩ = none :=
  ⟨_, rfl, fun _ _ _ => Iff.rfl, by decide +kernel, by decide +kernel, by decide +kernel⟩

/-- They are plain. -/
example : Module.Plain .empty (fun _ => false) ∧
    (∀ f ∈ [ab, acStar], f.Plain .empty (fun _ => false) Module.empty.items.length (Next.isDone .empty)) ∧
    Next.Plain .empty (fun _ => false) .empty := by
  refine ⟨fun i it h => by simp [Module.empty] at h, ?_, trivial⟩
  intro f hf
  rcases List.mem_cons.1 hf with rfl | hf
  · simp only [ab, Format.Plain, Format.FieldsPlain]
    exact ⟨⟨97, by decide +kernel⟩, ⟨98, by decide +kernel⟩, trivial⟩
  · cases List.mem_singleton.1 hf
    simp only [acStar, Format.Plain, Format.FieldsPlain]
    exact ⟨⟨97, by decide +kernel⟩, ⟨99, by decide +kernel⟩, trivial⟩

/-- Both can begin with `a`, and `ac*` accepts after `a`. -/
example : (∃ y, Reads .empty 10 (.cat ab .empty) [97] y) ∧ AcceptsAfter .empty 10 (.cat acStar .empty) [97] :=
  ⟨⟨_, .read rfl List.mem_cons_self (by decide +kernel) .done⟩,
    ⟨_, _, .read rfl List.mem_cons_self (by decide +kernel) .done, rfl, rfl⟩⟩

/-- No tree is built for two alternatives that both cover `ab`; they share that word. -/
example : MatchTree.build .empty order 10 [ab, ab] .empty = .ok none ∧
    Cat (Word .empty ab) (Follow .empty .empty) [97, 98] :=
  ⟨rfl, [97, 98], [], rfl, .tuple (.cons (u := [97]) (.byte (by decide +kernel))
    (.cons (u := [98]) (.byte (by decide +kernel)) .nil)), rfl⟩

end Doodle
