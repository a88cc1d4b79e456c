import Verif.Lemmas.GStep

/-!
Two ways of growing prefix trees whose continuations lead byte by byte to related continuations grow trees that
accept the same inputs, whatever the orders of the hash sets.
-/

namespace Doodle
namespace GTree

variable {N N' : Type}

/-- continuations of branches of levels: lists of entries -/
def levelConts (N : Type) : Conts (GLevelBranch N) := ⟨[], fun a b => a ++ b, fun a _ => a, fun a _ => a, fun _ a _ => a⟩

theorem level_split (e : Nat × N) : ∀ (l : List (ByteSet × GLevelBranch N)) (bs : ByteSet),
    GLevel.splitBranches e bs l = GStep.splitBranches (levelConts N) [e] bs l
  | [], _ => rfl
  | (bs0, x) :: l, bs => by
    simp only [GLevel.splitBranches, GStep.splitBranches, level_split e l]
    rfl

theorem level_merge (i : Nat) (acc : List (ByteSet × GLevelBranch N)) (bs : ByteSet) (x : N) (a : Bool) :
    GLevel.mergeBranch acc i bs x = ((⟨a, acc⟩ : GStep _).unionBranch (levelConts N) bs [(i, x)]).branches := by
  simp only [GLevel.mergeBranch, GStep.unionBranch, level_split]

/-- the entry lists of a step's branches -/
def entries (i : Nat) (l : List (ByteSet × N)) : List (ByteSet × GLevelBranch N) := l.map fun p => (p.1, [(i, p.2)])

theorem at_entries (i : Nat) (l : List (ByteSet × N)) (b : UInt8) :
    atB (entries i l) b = (atB l b).map fun x => [(i, x)] := by
  induction l with
  | nil => rfl
  | cons p l ih =>
    obtain ⟨bs, x⟩ := p
    show atB ((bs, [(i, x)]) :: entries i l) b = _
    simp only [atB, ih]
    cases bs.contains b <;> rfl

theorem disj_entries (i : Nat) : ∀ {l : List (ByteSet × N)}, Disj l → Disj (entries i l)
  | [], _ => trivial
  | (_, _) :: l, h => ⟨fun b hb => by
      show atB (entries i l) b = none
      rw [at_entries, h.1 b hb]; rfl, disj_entries i h.2⟩

theorem level_merges (i : Nat) (a : Bool) : ∀ (l : List (ByteSet × N)) (acc : List (ByteSet × GLevelBranch N)),
    GLevel.mergeBranches i acc l = ((⟨a, acc⟩ : GStep _).unionBranches (levelConts N) (entries i l)).branches
  | [], _ => rfl
  | (bs, x) :: l, acc => by
    show GLevel.mergeBranches i (GLevel.mergeBranch acc i bs x) l = _
    rw [level_merges i a l, level_merge i acc bs x a]
    rfl

/-- the entries a byte leads to -/
def goes (l : List (ByteSet × GLevelBranch N)) (b : UInt8) : GLevelBranch N := (atB l b).getD []

/-- a level: disjoint branches, none with no bytes or no entries -/
structure LWf (l : List (ByteSet × GLevelBranch N)) : Prop where
  disj : Disj l
  ne : NE l
  full : ∀ b, atB l b ≠ some []

theorem merges_wf (i : Nat) {s : GStep N} (hs : Wf s) {acc : List (ByteSet × GLevelBranch N)} (h : LWf acc) :
    LWf (GLevel.mergeBranches i acc s.branches) ∧ ∀ b, goes (GLevel.mergeBranches i acc s.branches) b =
      goes acc b ++ ((to s b).map fun x => (i, x)).toList := by
  have hu := unionBranches_wf (levelConts N) (entries i s.branches) (s := ⟨false, acc⟩) ⟨h.disj, h.ne⟩
    (disj_entries i hs.disj)
  obtain ⟨hw, _, ha⟩ := hu
  have ha : ∀ b, atB (GLevel.mergeBranches i acc s.branches) b =
      orUnion (levelConts N) (atB acc b) ((to s b).map fun x => [(i, x)]) := by
    intro b
    rw [to, ← at_entries, level_merges i false]
    exact ha b
  have hwd : Disj (GLevel.mergeBranches i acc s.branches) := by rw [level_merges i false]; exact hw.disj
  have hwn : NE (GLevel.mergeBranches i acc s.branches) := by rw [level_merges i false]; exact hw.ne
  refine ⟨⟨hwd, hwn, fun b => ?_⟩, fun b => ?_⟩
  · rw [ha b]
    have := h.full b
    cases hx : atB acc b with
    | none => cases to s b <;> simp [orUnion]
    | some y =>
      rw [hx] at this
      cases to s b with
      | none => exact this
      | some z => simp [orUnion, levelConts]
  · rw [goes, ha b, goes]
    cases atB acc b <;> cases to s b <;> simp [orUnion, levelConts]

/-- the level made of some entries -/
structure Merged (step : N → Run (GStep N)) (l0 : GLevel N) (es : GLevelBranch N) (l : GLevel N) : Prop where
  wf : LWf l.branches
  ok : ∀ e ∈ es, ∃ s, step e.2 = .ok s
  mem : ∀ b e, e ∈ goes l.branches b ↔ e ∈ goes l0.branches b ∨
    ∃ x s, (e.1, x) ∈ es ∧ step x = .ok s ∧ to s b = some e.2
  acc : ∀ i, l.accept = some i ↔ l0.accept = some i ∨ ∃ x s, (i, x) ∈ es ∧ step x = .ok s ∧ s.accept = true

theorem mergeAll_all {step : N → Run (GStep N)} : ∀ {es : GLevelBranch N} {l0 l : GLevel N},
    GLevel.mergeAll step l0 es = .ok (some l) → ∀ e ∈ es, ∃ s, step e.2 = .ok s
  | [], _, _, _ => (fun e he => nomatch he)
  | (i, x) :: es, l0, l, h => by
    simp only [GLevel.mergeAll] at h
    obtain ⟨s, hs, h⟩ := Outcome.bind_eq_ok.1 h
    intro e he
    rcases List.mem_cons.1 he with rfl | he
    · exact ⟨s, hs⟩
    · cases hm : l0.mergeStep i s with
      | none => rw [hm] at h; cases h
      | some l1 => rw [hm] at h; exact mergeAll_all h e he

theorem mergeAll_ok {step : N → Run (GStep N)} :
    ∀ {es : GLevelBranch N} {l0 l : GLevel N}, (∀ e ∈ es, ∀ s, step e.2 = .ok s → Wf s) → LWf l0.branches →
      GLevel.mergeAll step l0 es = .ok (some l) → Merged step l0 es l
  | [], l0, l, _, h0, h => by
    simp only [GLevel.mergeAll, Outcome.ok.injEq, Option.some.injEq] at h
    subst h
    exact ⟨h0, (fun e he => nomatch he), fun b e => ⟨.inl, fun h => h.elim id (fun ⟨_, _, h, _⟩ => nomatch h)⟩,
      fun i => ⟨.inl, fun h => h.elim id (fun ⟨_, _, h, _⟩ => nomatch h)⟩⟩
  | (i, x) :: es, l0, l, hstep, h0, h => by
    simp only [GLevel.mergeAll] at h
    obtain ⟨s, hs, h⟩ := Outcome.bind_eq_ok.1 h
    have hw := hstep (i, x) List.mem_cons_self s hs
    have hm := merges_wf i hw h0
    -- the level after this entry
    have key : ∃ l1 : GLevel N, l1.branches = GLevel.mergeBranches i l0.branches s.branches ∧
        (∀ j, l1.accept = some j ↔ l0.accept = some j ∨ (j = i ∧ s.accept = true)) ∧
        GLevel.mergeAll step l1 es = .ok (some l) := by
      unfold GLevel.mergeStep at h
      cases ha : s.accept with
      | false =>
        simp only [ha, Bool.false_eq_true, if_false] at h
        exact ⟨_, rfl, fun j => by simp, h⟩
      | true =>
        simp only [ha, if_true] at h
        unfold GLevel.mergeAccept at h
        cases h0a : l0.accept with
        | none =>
          rw [h0a] at h
          exact ⟨_, rfl, fun j => by simp [eq_comm], h⟩
        | some k =>
          rw [h0a] at h
          dsimp only at h
          by_cases hk : k = i
          · simp only [hk, if_true] at h
            refine ⟨_, rfl, fun j => ?_, h⟩
            simp only [Option.some.injEq, hk, and_true]
            constructor
            · intro h; exact .inl h
            · rintro (h | h)
              · exact h
              · exact h.symm
          · simp only [hk, if_false] at h
            cases h
    obtain ⟨l1, hb1, ha1, h1⟩ := key
    have ih := mergeAll_ok (fun e he => hstep e (List.mem_cons_of_mem _ he)) (by rw [hb1]; exact hm.1) h1
    refine ⟨ih.wf, ?_, fun b e => ?_, fun j => ?_⟩
    · intro e he
      rcases List.mem_cons.1 he with rfl | he
      · exact ⟨s, hs⟩
      · exact ih.ok e he
    · rw [ih.mem b e, hb1, hm.2 b, List.mem_append]
      constructor
      · rintro ((h | h) | ⟨y, t, hy, ht, hb⟩)
        · exact .inl h
        · right
          cases hx : to s b with
          | none => rw [hx] at h; cases h
          | some z =>
            rw [hx] at h
            simp only [Option.map_some, Option.toList_some, List.mem_singleton] at h
            subst h
            exact ⟨x, s, List.mem_cons_self, hs, hx⟩
        · exact .inr ⟨y, t, List.mem_cons_of_mem _ hy, ht, hb⟩
      · rintro (h | ⟨y, t, hy, ht, hb⟩)
        · exact .inl (.inl h)
        · rcases List.mem_cons.1 hy with he | hy
          · simp only [Prod.mk.injEq] at he
            obtain ⟨rfl, rfl⟩ := he
            rw [hs] at ht
            cases ht
            left; right
            rw [hb]
            simp
          · exact .inr ⟨y, t, hy, ht, hb⟩
    · rw [ih.acc j, ha1 j]
      constructor
      · rintro ((h2 | ⟨rfl, h2⟩) | ⟨y, t, hy, ht, hb⟩)
        · exact .inl h2
        · exact .inr ⟨x, s, List.mem_cons_self, hs, h2⟩
        · exact .inr ⟨y, t, List.mem_cons_of_mem _ hy, ht, hb⟩
      · rintro (h | ⟨y, t, hy, ht, hb⟩)
        · exact .inl (.inl h)
        · rcases List.mem_cons.1 hy with he | hy
          · simp only [Prod.mk.injEq] at he
            obtain ⟨rfl, rfl⟩ := he
            rw [hs] at ht
            cases ht
            exact .inl (.inr ⟨rfl, hb⟩)
          · exact .inr ⟨y, t, hy, ht, hb⟩

theorem acceptsLoop_iff : ∀ (es : GLevelBranch N) (a : Option Nat) (r : Option Nat),
    GLevel.acceptsLoop a es = some r ↔
      (∀ i, r = some i ↔ a = some i ∨ ∃ x, (i, x) ∈ es)
  | [], a, r => by
    simp only [GLevel.acceptsLoop, Option.some.injEq, List.not_mem_nil, exists_false, or_false]
    constructor
    · rintro rfl i; exact Iff.rfl
    · intro h
      cases a with
      | none => cases r with
        | none => rfl
        | some i => have := (h i).1 rfl; cases this
      | some i => exact ((h i).2 rfl).symm
  | (i, x) :: es, a, r => by
    simp only [GLevel.acceptsLoop]
    have hmem : ∀ j, (∃ y, (j, y) ∈ (i, x) :: es) ↔ j = i ∨ ∃ y, (j, y) ∈ es := by
      intro j
      constructor
      · rintro ⟨y, hy⟩
        rcases List.mem_cons.1 hy with h | h
        · cases h; exact .inl rfl
        · exact .inr ⟨y, h⟩
      · rintro (rfl | ⟨y, h⟩)
        · exact ⟨x, List.mem_cons_self⟩
        · exact ⟨y, List.mem_cons_of_mem _ h⟩
    cases a with
    | none =>
      simp only [GLevel.mergeAccept]
      rw [acceptsLoop_iff es]
      simp only [hmem, reduceCtorEq, false_or, Option.some.injEq]
      constructor
      · intro h j; rw [h j, eq_comm]
      · intro h j; rw [h j, eq_comm (a := i)]
    | some k =>
      simp only [GLevel.mergeAccept]
      by_cases hk : k = i
      · subst hk
        simp only [if_true]
        rw [acceptsLoop_iff es]
        simp only [hmem, Option.some.injEq]
        constructor
        · intro h j; rw [h j, ← or_assoc, eq_comm (a := j)]; simp
        · intro h j; rw [h j, ← or_assoc, eq_comm (a := j)]; simp
      · simp only [hk, if_false]
        constructor
        · intro h; cases h
        · intro h
          have h1 := (h k).2 (.inl rfl)
          have h2 := (h i).2 (.inr ((hmem i).2 (.inl rfl)))
          rw [h1] at h2
          exact absurd (Option.some.inj h2) hk

theorem mem_insertByIx (x y : Nat × N) : ∀ l, y ∈ GLevel.insertByIx x l ↔ y = x ∨ y ∈ l
  | [] => by simp [GLevel.insertByIx]
  | z :: l => by
    simp only [GLevel.insertByIx]
    split
    · simp
    · simp only [List.mem_cons, mem_insertByIx x y l]
      constructor
      · rintro (h | h | h)
        · exact .inr (.inl h)
        · exact .inl h
        · exact .inr (.inr h)
      · rintro (h | h | h)
        · exact .inr (.inl h)
        · exact .inl h
        · exact .inr (.inr h)

theorem mem_sortByIx (y : Nat × N) : ∀ l, y ∈ GLevel.sortByIx l ↔ y ∈ l
  | [] => Iff.rfl
  | x :: l => by
    simp only [GLevel.sortByIx, mem_insertByIx, mem_sortByIx y l, List.mem_cons]

theorem growBranches_at {grow : Nat → GLevelBranch N → Run (Option MatchTree)} :
    ∀ {l : List (ByteSet × GLevelBranch N)} {pos : Nat} {ts : List (ByteSet × MatchTree)},
      GLevel.growBranches grow pos l = .ok (some ts) → ∀ b,
        match atB l b with
        | none => atB ts b = none
        | some es => ∃ k t, atB ts b = some t ∧ grow k es = .ok (some t)
  | [], pos, ts, h, b => by
    simp only [GLevel.growBranches, Outcome.ok.injEq, Option.some.injEq] at h
    subst h
    rfl
  | (bs, es) :: l, pos, ts, h, b => by
    simp only [GLevel.growBranches] at h
    obtain ⟨t, ht, h⟩ := Outcome.bind_eq_ok.1 h
    cases t with
    | none => cases h
    | some t =>
      dsimp only at h
      obtain ⟨r, hr, h⟩ := Outcome.bind_eq_ok.1 h
      cases r with
      | none => cases h
      | some r =>
        cases h
        have ih := growBranches_at hr b
        simp only [atB]
        cases bs.contains b with
        | true => exact ⟨pos, t, rfl, ht⟩
        | false => exact ih

/-- both nothing, or both something related -/
def ORel (R : N → N' → Prop) : Option N → Option N' → Prop
  | none, none => True
  | some x, some y => R x y
  | _, _ => False

/-- steps that accept alike and lead alike -/
structure SRel (R : N → N' → Prop) (s : GStep N) (t : GStep N') : Prop where
  acc : s.accept = t.accept
  wf : Wf s
  wf' : Wf t
  to : ∀ b, ORel R (to s b) (to t b)

/-- entries that are related both ways -/
structure ERel (R : N → N' → Prop) (es : GLevelBranch N) (es' : GLevelBranch N') : Prop where
  fwd : ∀ i x, (i, x) ∈ es → ∃ y, (i, y) ∈ es' ∧ R x y
  bwd : ∀ i y, (i, y) ∈ es' → ∃ x, (i, x) ∈ es ∧ R x y

theorem matchesBranches_at (a : Option Nat) : ∀ (l : List (ByteSet × MatchTree)) (b : UInt8) (w : List UInt8),
    MatchTree.matchesBranches l b w a = match atB l b with
      | none => a
      | some t => t.matchesBytes w
  | [], _, _ => rfl
  | (bs, t) :: l, b, w => by
    simp only [MatchTree.matchesBranches, atB]
    cases bs.contains b with
    | true => rfl
    | false => simp only [Bool.false_eq_true, if_false]; exact matchesBranches_at a l b w

/-- Trees grown from related entries choose alike. -/
theorem grow_agree {R : N → N' → Prop} {step : N → Run (GStep N)} {step' : N' → Run (GStep N')}
    (hR : ∀ x y s t, R x y → step x = .ok s → step' y = .ok t → SRel R s t)
    {ord : GHashOrder N} {ord' : GHashOrder N'} (ho : ord.Valid) (ho' : ord'.Valid) :
    ∀ (d : Nat) (p p' : List Nat) (es : GLevelBranch N) (es' : GLevelBranch N') (t t' : MatchTree), ERel R es es' →
      GLevel.grow step ord d p es = .ok (some t) → GLevel.grow step' ord' d p' es' = .ok (some t') →
      ∀ w, t.matchesBytes w = t'.matchesBytes w := by
  intro d
  induction d with
  | zero =>
    intro p p' es es' t t' he h h' w
    unfold GLevel.grow at h h'
    unfold GLevel.accepts at h h'
    cases ha : GLevel.acceptsLoop none (ord p es) with
    | none => rw [ha] at h; cases h
    | some a =>
      cases ha' : GLevel.acceptsLoop none (ord' p' es') with
      | none => rw [ha'] at h'; cases h'
      | some a' =>
        rw [ha] at h; rw [ha'] at h'
        cases h; cases h'
        have : a = a' := by
          rw [acceptsLoop_iff] at ha ha'
          apply Option.ext
          intro i
          rw [ha i, ha' i]
          simp only [reduceCtorEq, false_or]
          constructor
          · rintro ⟨x, hx⟩
            obtain ⟨y, hy, _⟩ := he.fwd i x ((ho p es _).1 hx)
            exact ⟨y, (ho' p' es' _).2 hy⟩
          · rintro ⟨x, hx⟩
            obtain ⟨y, hy, _⟩ := he.bwd i x ((ho' p' es' _).1 hx)
            exact ⟨y, (ho p es _).2 hy⟩
        subst this
        rfl
  | succ d ih =>
    intro p p' es es' t t' he h h' w
    unfold GLevel.grow at h h'
    unfold GLevel.accepts at h h'
    have hloop : GLevel.acceptsLoop none (ord p es) = GLevel.acceptsLoop none (ord' p' es') := by
      apply Option.ext
      intro r
      rw [acceptsLoop_iff, acceptsLoop_iff]
      have : ∀ i, (∃ x, (i, x) ∈ ord p es) ↔ ∃ x, (i, x) ∈ ord' p' es' := by
        intro i
        constructor
        · rintro ⟨x, hx⟩
          obtain ⟨y, hy, _⟩ := he.fwd i x ((ho p es _).1 hx)
          exact ⟨y, (ho' p' es' _).2 hy⟩
        · rintro ⟨x, hx⟩
          obtain ⟨y, hy, _⟩ := he.bwd i x ((ho' p' es' _).1 hx)
          exact ⟨y, (ho p es _).2 hy⟩
      simp only [this]
    cases ha : GLevel.acceptsLoop none (ord p es) with
    | some a =>
      rw [← hloop, ha] at h'
      rw [ha] at h
      cases h; cases h'; rfl
    | none =>
      rw [← hloop, ha] at h'
      rw [ha] at h
      dsimp only at h h'
      obtain ⟨l, hl, h⟩ := Outcome.bind_eq_ok.1 h
      obtain ⟨l', hl', h'⟩ := Outcome.bind_eq_ok.1 h'
      cases l with
      | none => cases h
      | some l =>
      cases l' with
      | none => cases h'
      | some l' =>
      dsimp only at h h'
      obtain ⟨ts, hts, h⟩ := Outcome.bind_eq_ok.1 h
      obtain ⟨ts', hts', h'⟩ := Outcome.bind_eq_ok.1 h'
      cases ts with
      | none => cases h
      | some ts =>
      cases ts' with
      | none => cases h'
      | some ts' =>
      cases h; cases h'
      have h0 : LWf (GLevel.reject : GLevel N).branches := ⟨trivial, (fun p hp => nomatch hp), fun b h => nomatch h⟩
      have h0' : LWf (GLevel.reject : GLevel N').branches := ⟨trivial, (fun p hp => nomatch hp), fun b h => nomatch h⟩
      -- entries after sorting are related
      have he2 : ERel R (GLevel.sortByIx (ord p es)) (GLevel.sortByIx (ord' p' es')) := by
        constructor
        · intro i x hx
          obtain ⟨y, hy, hr⟩ := he.fwd i x ((ho p es _).1 ((mem_sortByIx _ _).1 hx))
          exact ⟨y, (mem_sortByIx _ _).2 ((ho' p' es' _).2 hy), hr⟩
        · intro i x hx
          obtain ⟨y, hy, hr⟩ := he.bwd i x ((ho' p' es' _).1 ((mem_sortByIx _ _).1 hx))
          exact ⟨y, (mem_sortByIx _ _).2 ((ho p es _).2 hy), hr⟩
      have hall := mergeAll_all hl
      have hall' := mergeAll_all hl'
      have hm := mergeAll_ok (fun e h s hs => by
        obtain ⟨y, hy, hr⟩ := he2.fwd e.1 e.2 h
        obtain ⟨s', hs'⟩ := hall' _ hy
        exact (hR e.2 y s s' hr hs hs').wf) h0 hl
      have hm' := mergeAll_ok (fun e h s' hs' => by
        obtain ⟨x, hx, hr⟩ := he2.bwd e.1 e.2 h
        obtain ⟨s, hs⟩ := hall _ hx
        exact (hR x e.2 s s' hr hs hs').wf') h0' hl'
      have hacc : l.accept = l'.accept := by
        apply Option.ext
        intro i
        rw [hm.acc i, hm'.acc i]
        constructor
        · rintro (h | ⟨x, s, hx, hs, hsa⟩)
          · cases h
          · obtain ⟨y, hy, hr⟩ := he2.fwd i x hx
            obtain ⟨s', hs'⟩ := hm'.ok _ hy
            exact .inr ⟨y, s', hy, hs', by rw [← (hR x y s s' hr hs hs').acc]; exact hsa⟩
        · rintro (h | ⟨y, s', hy, hs', hsa⟩)
          · cases h
          · obtain ⟨x, hx, hr⟩ := he2.bwd i y hy
            obtain ⟨s, hs⟩ := hm.ok _ hx
            exact .inr ⟨x, s, hx, hs, by rw [(hR x y s s' hr hs hs').acc]; exact hsa⟩
      have hgo : ∀ b, ERel R (goes l.branches b) (goes l'.branches b) := by
        intro b
        constructor
        · intro i x hx
          rcases (hm.mem b (i, x)).1 hx with h | ⟨x0, s, hx0, hs, hto⟩
          · cases h
          · obtain ⟨y0, hy0, hr⟩ := he2.fwd i x0 hx0
            obtain ⟨s', hs'⟩ := hm'.ok _ hy0
            have hst := (hR x0 y0 s s' hr hs hs').to b
            rw [hto] at hst
            cases hy : to s' b with
            | none => rw [hy] at hst; exact hst.elim
            | some y =>
              rw [hy] at hst
              exact ⟨y, (hm'.mem b (i, y)).2 (.inr ⟨y0, s', hy0, hs', hy⟩), hst⟩
        · intro i y hy
          rcases (hm'.mem b (i, y)).1 hy with h | ⟨y0, s', hy0, hs', hto⟩
          · cases h
          · obtain ⟨x0, hx0, hr⟩ := he2.bwd i y0 hy0
            obtain ⟨s, hs⟩ := hm.ok _ hx0
            have hst := (hR x0 y0 s s' hr hs hs').to b
            rw [hto] at hst
            cases hx : to s b with
            | none => rw [hx] at hst; exact hst.elim
            | some x =>
              rw [hx] at hst
              exact ⟨x, (hm.mem b (i, x)).2 (.inr ⟨x0, s, hx0, hs, hx⟩), hst⟩
      cases w with
      | nil => exact hacc
      | cons b w =>
        simp only [MatchTree.matchesBytes, matchesBranches_at, hacc]
        have g := growBranches_at hts b
        have g' := growBranches_at hts' b
        have hg := hgo b
        cases hb : atB l.branches b with
        | none =>
          cases hb' : atB l'.branches b with
          | none =>
            rw [hb] at g; rw [hb'] at g'
            dsimp only at g g'
            rw [g, g']
          | some e' =>
            rw [goes, goes, hb, hb'] at hg
            cases e' with
            | nil => exact absurd hb' (hm'.wf.full b)
            | cons q e' =>
              obtain ⟨x, hx, _⟩ := hg.bwd q.1 q.2 List.mem_cons_self
              cases hx
        | some e =>
          cases hb' : atB l'.branches b with
          | none =>
            rw [goes, goes, hb, hb'] at hg
            cases e with
            | nil => exact absurd hb (hm.wf.full b)
            | cons q e =>
              obtain ⟨x, hx, _⟩ := hg.fwd q.1 q.2 List.mem_cons_self
              cases hx
          | some e' =>
            rw [goes, goes, hb, hb'] at hg
            rw [hb] at g; rw [hb'] at g'
            obtain ⟨k, u, hu, hgu⟩ := g
            obtain ⟨k', u', hu', hgu'⟩ := g'
            rw [hu, hu']
            exact ih _ _ _ _ u u' hg hgu hgu' w

end GTree
end Doodle
