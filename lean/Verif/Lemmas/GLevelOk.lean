import Verif.Lemmas.GLevel

/-! If one of two related constructions of a prefix tree ends with a tree, so does the other. -/

namespace Doodle
namespace GTree

variable {N N' : Type}

theorem mergeAll_succ {step : N → Run (GStep N)} : ∀ (es : GLevelBranch N) (l0 : GLevel N),
    (∀ e ∈ es, ∃ s, step e.2 = .ok s) →
    (∀ i j, (l0.accept = some i ∨ ∃ x s, (i, x) ∈ es ∧ step x = .ok s ∧ s.accept = true) →
      (l0.accept = some j ∨ ∃ x s, (j, x) ∈ es ∧ step x = .ok s ∧ s.accept = true) → i = j) →
    ∃ l, GLevel.mergeAll step l0 es = .ok (some l)
  | [], l0, _, _ => ⟨l0, rfl⟩
  | (i, x) :: es, l0, hok, hun => by
    obtain ⟨s, hs⟩ := hok (i, x) List.mem_cons_self
    have hok' : ∀ e ∈ es, ∃ s, step e.2 = .ok s := fun e he => hok e (List.mem_cons_of_mem _ he)
    have hs : step x = .ok s := hs
    simp only [GLevel.mergeAll, hs, Outcome.bind_ok, GLevel.mergeStep]
    have hrest : ∀ j, (∃ y t, (j, y) ∈ es ∧ step y = .ok t ∧ t.accept = true) →
        ∃ y t, (j, y) ∈ (i, x) :: es ∧ step y = .ok t ∧ t.accept = true :=
      fun j ⟨y, t, hy, h⟩ => ⟨y, t, List.mem_cons_of_mem _ hy, h⟩
    cases ha : s.accept with
    | false =>
      simp only [Bool.false_eq_true, if_false]
      exact mergeAll_succ es _ hok' fun a b h1 h2 => hun a b (h1.imp id (hrest a)) (h2.imp id (hrest b))
    | true =>
      simp only [if_true]
      have hi : ∃ y t, (i, y) ∈ (i, x) :: es ∧ step y = .ok t ∧ t.accept = true :=
        ⟨x, s, List.mem_cons_self, hs, ha⟩
      cases h0 : l0.accept with
      | none =>
        simp only [GLevel.mergeAccept]
        refine mergeAll_succ es _ hok' fun a b h1 h2 => ?_
        have e1 : i = a := by
          rcases h1 with h | h
          · cases h; rfl
          · exact hun i a (.inr hi) (.inr (hrest a h))
        have e2 : i = b := by
          rcases h2 with h | h
          · cases h; rfl
          · exact hun i b (.inr hi) (.inr (hrest b h))
        exact e1.symm.trans e2
      | some k =>
        have hk : k = i := hun k i (.inl h0) (.inr hi)
        simp only [GLevel.mergeAccept, hk, if_true]
        refine mergeAll_succ es _ hok' fun a b h1 h2 => ?_
        have e1 : i = a := by
          rcases h1 with h | h
          · cases h; rfl
          · exact hun i a (.inr hi) (.inr (hrest a h))
        have e2 : i = b := by
          rcases h2 with h | h
          · cases h; rfl
          · exact hun i b (.inr hi) (.inr (hrest b h))
        exact e1.symm.trans e2

theorem growBranches_succ {grow : Nat → GLevelBranch N → Run (Option MatchTree)} :
    ∀ (l : List (ByteSet × GLevelBranch N)) (pos : Nat), (∀ p ∈ l, ∀ k, ∃ t, grow k p.2 = .ok (some t)) →
      ∃ ts, GLevel.growBranches grow pos l = .ok (some ts)
  | [], _, _ => ⟨[], rfl⟩
  | (bs, es) :: l, pos, h => by
    obtain ⟨t, ht⟩ := h (bs, es) List.mem_cons_self pos
    obtain ⟨ts, hts⟩ := growBranches_succ l (pos + 1) fun p hp => h p (List.mem_cons_of_mem _ hp)
    have ht : grow pos es = .ok (some t) := ht
    exact ⟨(bs, t) :: ts, by simp only [GLevel.growBranches, ht, hts, Outcome.bind_ok]⟩

theorem at_of_mem : ∀ {l : List (ByteSet × N)} {p : ByteSet × N} {b : UInt8}, Disj l → p ∈ l →
    p.1.contains b = true → atB l b = some p.2
  | (bs, x) :: l, p, b, hd, hp, hb => by
    rcases List.mem_cons.1 hp with rfl | hp
    · simp only [atB, hb, if_true]
    · have := at_of_mem hd.2 hp hb
      by_cases hc : bs.contains b = true
      · have h2 := hd.1 b hc
        rw [this] at h2
        cases h2
      · simp only [atB, hc, Bool.false_eq_true, if_false]
        exact this

theorem grow_succ {R : N → N' → Prop} {step : N → Run (GStep N)} {step' : N' → Run (GStep N')}
    (hR : ∀ x y s t, R x y → step x = .ok s → step' y = .ok t → SRel R s t)
    (hS : ∀ x y s, R x y → step x = .ok s → ∃ t, step' y = .ok t)
    {ord : GHashOrder N} {ord' : GHashOrder N'} (ho : ord.Valid) (ho' : ord'.Valid) :
    ∀ (d : Nat) (p p' : List Nat) (es : GLevelBranch N) (es' : GLevelBranch N') (t : MatchTree), ERel R es es' →
      GLevel.grow step ord d p es = .ok (some t) → ∃ t', GLevel.grow step' ord' d p' es' = .ok (some t') := by
  intro d
  induction d with
  | zero =>
    intro p p' es es' t he h
    have hloop : GLevel.acceptsLoop none (ord p es) = GLevel.acceptsLoop none (ord' p' es') := by
      apply Option.ext
      intro r
      rw [acceptsLoop_iff, acceptsLoop_iff]
      have : ∀ i, (∃ x, (i, x) ∈ ord p es) ↔ ∃ x, (i, x) ∈ ord' p' es' := by
        intro i
        constructor
        · rintro ⟨x, hx⟩
          obtain ⟨y, hy, _⟩ := he.fwd i x ((ho p es _).1 hx)
          exact ⟨y, (ho' p' es' _).2 hy⟩
        · rintro ⟨x, hx⟩
          obtain ⟨y, hy, _⟩ := he.bwd i x ((ho' p' es' _).1 hx)
          exact ⟨y, (ho p es _).2 hy⟩
      simp only [this]
    unfold GLevel.grow GLevel.accepts at h ⊢
    rw [← hloop]
    cases ha : GLevel.acceptsLoop none (ord p es) with
    | some a => exact ⟨_, rfl⟩
    | none => rw [ha] at h; cases h
  | succ d ih =>
    intro p p' es es' t he h
    have hloop : GLevel.acceptsLoop none (ord p es) = GLevel.acceptsLoop none (ord' p' es') := by
      apply Option.ext
      intro r
      rw [acceptsLoop_iff, acceptsLoop_iff]
      have : ∀ i, (∃ x, (i, x) ∈ ord p es) ↔ ∃ x, (i, x) ∈ ord' p' es' := by
        intro i
        constructor
        · rintro ⟨x, hx⟩
          obtain ⟨y, hy, _⟩ := he.fwd i x ((ho p es _).1 hx)
          exact ⟨y, (ho' p' es' _).2 hy⟩
        · rintro ⟨x, hx⟩
          obtain ⟨y, hy, _⟩ := he.bwd i x ((ho' p' es' _).1 hx)
          exact ⟨y, (ho p es _).2 hy⟩
      simp only [this]
    unfold GLevel.grow GLevel.accepts at h ⊢
    rw [← hloop]
    cases ha : GLevel.acceptsLoop none (ord p es) with
    | some a => exact ⟨_, rfl⟩
    | none =>
      rw [ha] at h
      dsimp only at h ⊢
      obtain ⟨l, hl, h⟩ := Outcome.bind_eq_ok.1 h
      cases l with
      | none => cases h
      | some l =>
      dsimp only at h
      obtain ⟨ts, hts, h⟩ := Outcome.bind_eq_ok.1 h
      cases ts with
      | none => cases h
      | some ts =>
      have h0 : LWf (GLevel.reject : GLevel N).branches := ⟨trivial, (fun p hp => nomatch hp), fun b h => nomatch h⟩
      have h0' : LWf (GLevel.reject : GLevel N').branches := ⟨trivial, (fun p hp => nomatch hp), fun b h => nomatch h⟩
      have he2 : ERel R (GLevel.sortByIx (ord p es)) (GLevel.sortByIx (ord' p' es')) := by
        constructor
        · intro i x hx
          obtain ⟨y, hy, hr⟩ := he.fwd i x ((ho p es _).1 ((mem_sortByIx _ _).1 hx))
          exact ⟨y, (mem_sortByIx _ _).2 ((ho' p' es' _).2 hy), hr⟩
        · intro i x hx
          obtain ⟨y, hy, hr⟩ := he.bwd i x ((ho' p' es' _).1 ((mem_sortByIx _ _).1 hx))
          exact ⟨y, (mem_sortByIx _ _).2 ((ho p es _).2 hy), hr⟩
      have hall := mergeAll_all hl
      have hall' : ∀ e ∈ GLevel.sortByIx (ord' p' es'), ∃ s, step' e.2 = .ok s := by
        intro e h
        obtain ⟨x, hx, hr⟩ := he2.bwd e.1 e.2 h
        obtain ⟨s, hs⟩ := hall _ hx
        exact hS x e.2 s hr hs
      have hm := mergeAll_ok (fun e h s hs => by
        obtain ⟨y, hy, hr⟩ := he2.fwd e.1 e.2 h
        obtain ⟨s', hs'⟩ := hall' _ hy
        exact (hR e.2 y s s' hr hs hs').wf) h0 hl
      have hacc : ∀ i, (∃ y s', (i, y) ∈ GLevel.sortByIx (ord' p' es') ∧ step' y = .ok s' ∧ s'.accept = true) →
          l.accept = some i := by
        rintro i ⟨y, s', hy, hs', hsa⟩
        obtain ⟨x, hx, hr⟩ := he2.bwd i y hy
        obtain ⟨s, hs⟩ := hm.ok _ hx
        exact (hm.acc i).2 (.inr ⟨x, s, hx, hs, by rw [(hR x y s s' hr hs hs').acc]; exact hsa⟩)
      obtain ⟨l', hl'⟩ := mergeAll_succ (GLevel.sortByIx (ord' p' es')) GLevel.reject hall' (by
        intro i j h1 h2
        rcases h1 with h1 | h1
        · cases h1
        · rcases h2 with h2 | h2
          · cases h2
          · have e1 := hacc i h1
            rw [hacc j h2] at e1
            cases e1; rfl)
      have hm' := mergeAll_ok (fun e h s' hs' => by
        obtain ⟨x, hx, hr⟩ := he2.bwd e.1 e.2 h
        obtain ⟨s, hs⟩ := hall _ hx
        exact (hR x e.2 s s' hr hs hs').wf') h0' hl'
      have hgo : ∀ b, ERel R (goes l.branches b) (goes l'.branches b) := by
        intro b
        constructor
        · intro i x hx
          rcases (hm.mem b (i, x)).1 hx with h | ⟨x0, s, hx0, hs, hto⟩
          · cases h
          · obtain ⟨y0, hy0, hr⟩ := he2.fwd i x0 hx0
            obtain ⟨s', hs'⟩ := hm'.ok _ hy0
            have hst := (hR x0 y0 s s' hr hs hs').to b
            rw [hto] at hst
            cases hy : to s' b with
            | none => rw [hy] at hst; exact hst.elim
            | some y =>
              rw [hy] at hst
              exact ⟨y, (hm'.mem b (i, y)).2 (.inr ⟨y0, s', hy0, hs', hy⟩), hst⟩
        · intro i y hy
          rcases (hm'.mem b (i, y)).1 hy with h | ⟨y0, s', hy0, hs', hto⟩
          · cases h
          · obtain ⟨x0, hx0, hr⟩ := he2.bwd i y0 hy0
            obtain ⟨s, hs⟩ := hm.ok _ hx0
            have hst := (hR x0 y0 s s' hr hs hs').to b
            rw [hto] at hst
            cases hx : to s b with
            | none => rw [hx] at hst; exact hst.elim
            | some x =>
              rw [hx] at hst
              exact ⟨x, (hm.mem b (i, x)).2 (.inr ⟨x0, s, hx0, hs, hx⟩), hst⟩
      obtain ⟨ts', hts'⟩ := growBranches_succ
        (grow := fun pos nexts => GLevel.grow step' ord' d (pos :: p') nexts) l'.branches 0 (by
          intro q hq k
          obtain ⟨b, hb⟩ := hm'.wf.ne q hq
          have hat := at_of_mem hm'.wf.disj hq hb
          have hg := hgo b
          have g := growBranches_at hts b
          cases hb' : atB l.branches b with
          | none =>
            rw [goes, goes, hat, hb'] at hg
            cases hq2 : q.2 with
            | nil => rw [hq2] at hat; exact absurd hat (hm'.wf.full b)
            | cons z e =>
              rw [hq2] at hg
              obtain ⟨x, hx, _⟩ := hg.bwd z.1 z.2 List.mem_cons_self
              cases hx
          | some e =>
            rw [goes, goes, hat, hb'] at hg
            rw [hb'] at g
            obtain ⟨k0, u, hu, hgu⟩ := g
            exact ih _ _ _ _ u hg hgu)
      refine ⟨.node l'.accept ts', ?_⟩
      simp only [hl', hts', Outcome.bind_ok]

end GTree
end Doodle
