import Verif.Lemmas.Tree

/-!
Why no prefix tree is built: two alternatives are both complete after the same bytes, or both still possible after as
many bytes as the tree may be deep.
-/

namespace Doodle
namespace Tree

open ByteSet

/-- no branch has an empty set of bytes -/
def Full (l : List (ByteSet × LevelBranch)) : Prop := ∀ p ∈ l, ∃ b, p.1.contains b = true

theorem nonempty_of {s : ByteSet} (h : ¬ s.isEmpty = true) : ∃ b, s.contains b = true := by
  apply Classical.byContradiction
  intro hn
  exact h ((C01_isEmpty s).2 fun b hb => hn ⟨b, hb⟩)

theorem split_full (entry : Nat × Next) : ∀ (bs : ByteSet) (l : List (ByteSet × LevelBranch)), Full l →
    Full (Level.splitBranches entry bs l).1 ∧ Full (Level.splitBranches entry bs l).2.2
  | bs, [], _ => ⟨(fun _ h => nomatch h), fun _ h => nomatch h⟩
  | bs, (bs0, es) :: rest, h => by
    have hr : Full rest := fun p hp => h p (List.mem_cons_of_mem _ hp)
    simp only [Level.splitBranches]
    split
    · have ih := split_full entry bs rest hr
      refine ⟨?_, ih.2⟩
      intro p hp
      rcases List.mem_cons.1 hp with rfl | hp
      · exact h _ List.mem_cons_self
      · exact ih.1 p hp
    · next hc =>
      have ih := split_full entry (bs.difference (bs0.intersection bs)) rest hr
      refine ⟨?_, ?_⟩
      · intro p hp
        rcases List.mem_cons.1 hp with rfl | hp
        · exact nonempty_of hc
        · exact ih.1 p hp
      · intro p hp
        split at hp
        · exact ih.2 p hp
        · next ho =>
          rcases List.mem_cons.1 hp with rfl | hp
          · exact nonempty_of ho
          · exact ih.2 p hp

theorem mergeBranch_full {l : List (ByteSet × LevelBranch)} (h : Full l) (i : Nat) (bs : ByteSet) (x : Next) :
    Full (Level.mergeBranch l i bs x) := by
  have hs := split_full (i, x) bs l h
  unfold Level.mergeBranch
  intro p hp
  rcases List.mem_append.1 hp with hp | hp
  · rcases List.mem_append.1 hp with hp | hp
    · exact hs.1 p hp
    · split at hp
      · cases hp
      · next ho =>
        rw [List.mem_singleton] at hp
        subst hp
        exact nonempty_of ho
  · exact hs.2 p hp

theorem mergeBranches_full {i : Nat} : ∀ {ss : List (ByteSet × Next)} {l : List (ByteSet × LevelBranch)}, Full l →
    Full (Level.mergeBranches i l ss)
  | [], _, h => h
  | (bs, x) :: ss, _, h => mergeBranches_full (ss := ss) (mergeBranch_full h i bs x)

theorem mergeStep_full {l l' : Level} {i : Nat} {s : Step} (h : Full l.branches) (hm : l.mergeStep i s = some l') :
    Full l'.branches := by
  unfold Level.mergeStep at hm
  split at hm
  · split at hm
    · cases hm
    · cases hm; exact mergeBranches_full h
  · cases hm; exact mergeBranches_full h

theorem mergeAll_full {m : Module} {n : Nat} : ∀ {es : LevelBranch} {l l' : Level}, Full l.branches →
    Level.mergeAll m n l es = .ok (some l') → Full l'.branches
  | [], _, _, h, hm => by cases hm; exact h
  | (i, x) :: es, l, l', h, hm => by
    simp only [Level.mergeAll] at hm
    obtain ⟨s, hs, hm⟩ := Outcome.bind_eq_ok.1 hm
    cases hq : l.mergeStep i s with
    | none => rw [hq] at hm; cases hm
    | some l1 =>
      rw [hq] at hm
      exact mergeAll_full (mergeStep_full h hq) hm

/-- the entry is complete here -/
def Done (m : Module) (n : Nat) (es : LevelBranch) (i : Nat) : Prop :=
  ∃ x s, (i, x) ∈ es ∧ Next.step m n x = .ok s ∧ s.accept = true

theorem Done.tail {m : Module} {n : Nat} {e : Nat × Next} {es : LevelBranch} {i : Nat} (h : Done m n es i) :
    Done m n (e :: es) i := by
  obtain ⟨x, s, hx, h⟩ := h
  exact ⟨x, s, List.mem_cons_of_mem _ hx, h⟩

theorem mergeAll_none {m : Module} {n : Nat} : ∀ {es : LevelBranch} {l : Level},
    Level.mergeAll m n l es = .ok none →
    ∃ i j, i ≠ j ∧ (l.accept = some i ∨ Done m n es i) ∧ Done m n es j
  | (i, x) :: es, l, h => by
    simp only [Level.mergeAll] at h
    obtain ⟨s, hs, h⟩ := Outcome.bind_eq_ok.1 h
    cases hq : l.mergeStep i s with
    | none =>
      unfold Level.mergeStep at hq
      split at hq
      · next ha =>
        split at hq
        · next hm =>
          unfold Level.mergeAccept at hm
          split at hm
          · cases hm
          · next j hj =>
            split at hm
            · cases hm
            · next hne => exact ⟨j, i, hne, .inl hj, x, s, List.mem_cons_self, hs, ha⟩
        · cases hq
      · cases hq
    | some l1 =>
      rw [hq] at h
      obtain ⟨a, b, hab, h1, h2⟩ := mergeAll_none h
      have hacc : l1.accept = l.accept ∨ (l1.accept = some i ∧ s.accept = true) := by
        unfold Level.mergeStep at hq
        split at hq
        · next ha =>
          split at hq
          · cases hq
          · next c hc => cases hq; exact .inr ⟨(mergeAccept_some hc).1, ha⟩
        · cases hq; exact .inl rfl
      refine ⟨a, b, hab, ?_, h2.tail⟩
      rcases h1 with h1 | h1
      · rcases hacc with hacc | ⟨hacc, ha⟩
        · exact .inl (hacc ▸ h1)
        · rw [hacc] at h1; cases h1
          exact .inr ⟨x, s, List.mem_cons_self, hs, ha⟩
      · exact .inr h1.tail

theorem growBranches_none {grow : Nat → LevelBranch → Run (Option MatchTree)} :
    ∀ {l : List (ByteSet × LevelBranch)} {pos : Nat}, Level.growBranches grow pos l = .ok none →
      ∃ p ∈ l, ∃ q, grow q p.2 = .ok none
  | (bs, es) :: l, pos, h => by
    simp only [Level.growBranches] at h
    obtain ⟨t, ht, h⟩ := Outcome.bind_eq_ok.1 h
    cases t with
    | none => exact ⟨_, List.mem_cons_self, pos, ht⟩
    | some t =>
      obtain ⟨ts, hts, h⟩ := Outcome.bind_eq_ok.1 h
      cases ts with
      | none =>
        obtain ⟨p, hp, q, hq⟩ := growBranches_none hts
        exact ⟨p, List.mem_cons_of_mem _ hp, q, hq⟩
      | some ts => cases h

variable {m : Module} {n : Nat} {P : Next → Prop} {L V : Next → List UInt8 → Prop} {ord : HashOrder}

/-- If no tree is built, two alternatives share a word, or are both viable after `depth` bytes. -/
theorem grow_none (hs : Sem m n P L V) (ho : ord.Valid) : ∀ (depth : Nat) (path : List Nat)
    (es : LevelBranch), Level.grow m ord n depth path es = .ok none → (∀ e ∈ es, P e.2) →
    ∃ i j x y u, i ≠ j ∧ (i, x) ∈ es ∧ (j, y) ∈ es ∧
      ((L x u ∧ L y u) ∨ (u.length = depth ∧ V x u ∧ V y u)) := by
  intro depth
  induction depth with
  | zero =>
    intro path es h hP
    unfold Level.grow at h
    split at h
    · cases h
    · next ha =>
      unfold Level.accepts at ha
      split at ha
      · next hl =>
        obtain ⟨e, he, hx⟩ := acceptsLoop_none hl
        rcases hx with ⟨i, hi, _⟩ | ⟨e', he', hne⟩
        · cases hi
        · have h1 := (ho path es e).1 he
          have h2 := (ho path es e').1 he'
          exact ⟨e.1, e'.1, e.2, e'.2, [], hne, h1, h2, .inr ⟨rfl, hs.live _ (hP _ h1), hs.live _ (hP _ h2)⟩⟩
      · cases ha
  | succ depth ih =>
    intro path es h hP
    unfold Level.grow at h
    split at h
    · cases h
    · have hmem : ∀ e, e ∈ Level.sortByIx (ord path es) ↔ e ∈ es := fun e =>
        HuffmanTree.mem_sortByIx.trans (ho path es e)
      dsimp only at h
      obtain ⟨r, hr, h⟩ := Outcome.bind_eq_ok.1 h
      match r with
      | none =>
        obtain ⟨i, j, hij, h1, ⟨y, t, hy, hst, hat⟩⟩ := mergeAll_none hr
        rcases h1 with h1 | ⟨x, s, hx, hsx, hax⟩
        · cases h1
        · have hx := (hmem _).1 hx
          have hy := (hmem _).1 hy
          exact ⟨i, j, x, y, [], hij, hx, hy, .inl ⟨(hs.accept x s (hP _ hx) hsx).1 hax,
            (hs.accept y t (hP _ hy) hst).1 hat⟩⟩
      | some l =>
        obtain ⟨ts, hts, h⟩ := Outcome.bind_eq_ok.1 h
        match ts with
        | some ts => cases h
        | none =>
          obtain ⟨h1, h2, h3, h4⟩ := mergeAll_ok (l := Level.reject) .nil hr
          have hfull := mergeAll_full (l := Level.reject) (fun _ h => nomatch h) hr
          obtain ⟨p, hp, q, hq⟩ := growBranches_none hts
          obtain ⟨b, hb⟩ := hfull p hp
          have hto : ∀ e ∈ p.2, ∃ x s, (e.1, x) ∈ es ∧ Next.step m n x = .ok s ∧ Step.To s b e.2 := by
            intro e he
            rcases (h3 b e).1 ⟨p.1, p.2, hp, hb, he⟩ with h | ⟨x, s, hx, hsx, ht⟩
            · exact absurd h To.nil
            · exact ⟨x, s, (hmem _).1 hx, hsx, ht⟩
          obtain ⟨i, j, x', y', u, hij, hi, hj, hor⟩ := ih (q :: path) p.2 hq (by
            intro e he
            obtain ⟨x, s, hx, hsx, ht⟩ := hto e he
            exact hs.keep x s b e.2 (hP _ hx) hsx ht)
          obtain ⟨x, s, hx, hsx, htx⟩ := hto _ hi
          obtain ⟨y, t, hy, hst, hty⟩ := hto _ hj
          refine ⟨i, j, x, y, b :: u, hij, hx, hy, ?_⟩
          rcases hor with ⟨ha, hb'⟩ | ⟨hl, ha, hb'⟩
          · exact .inl ⟨(hs.next x s b u (hP _ hx) hsx).2 ⟨x', htx, ha⟩, (hs.next y t b u (hP _ hy) hst).2 ⟨y', hty, hb'⟩⟩
          · exact .inr ⟨by simp only [List.length_cons, hl], (hs.view x s b u (hP _ hx) hsx).2 ⟨x', htx, ha⟩,
              (hs.view y t b u (hP _ hy) hst).2 ⟨y', hty, hb'⟩⟩

end Tree
end Doodle
