import Verif.Lemmas.Name

/-!
C42: generated type names are unique and stable.

Two different registered paths never receive the same final name, asking again for the same path gives the
same name, and names already handed out never change when further paths are registered.

Stability holds without conditions. Uniqueness is refuted for labels that imitate the deduplication suffix
(`C42_unique_refuted`), and proved for labels that do not contain `dupX`; `C42_collision` says exactly which
pairs can collide. Paths that agree from their innermost explicit name on denote the same place (`SamePlace`)
and share a name by design.
-/

namespace Doodle
namespace Names

/-- A name handed out for a path is handed out again for every path of the same place, after any further
operations. -/
theorem C42_stable (c c1 c2 : Ctxt) (p q : Path) (n : String) (ops : List Op)
    (hf : c.findNameFor p = (some n, c1)) (hr : c1.run ops = .ok c2) (hq : SamePlace p q) :
    (c2.findNameFor q).1 = some n := by
  obtain ⟨ix, h1, h2⟩ := findNameFor_some (c := c) (p := p) (n := n) (by rw [hf])
  rw [hf] at h1
  have h3 := (h1.ext (run_ext hr)).of_trim (samePlace_iff.mp hq)
  rw [findNameFor_assigned h3, h2, ← synthesize_trim p, ← synthesize_trim q, samePlace_iff.mp hq]

/-- A registered path gets a name, at any later time. -/
theorem C42_registered (c c1 c2 : Ctxt) (p : Path) (ops : List Op) (hg : c.registerPath = (p, c1))
    (hr : c1.run ops = .ok c2) :
    SamePlace p c.stack ∧ ∃ n, (c2.findNameFor p).1 = some n := by
  have h1 := registerPath_known c
  rw [hg] at h1
  have h2 : p = trim c.stack := by
    have := congrArg Prod.fst hg
    exact this.symm
  refine ⟨samePlace_iff.mpr (by rw [h2, trim_trim]), ?_⟩
  exact findNameFor_known ((h1.ext (run_ext hr)).of_trim (by rw [h2, trim_trim]))

/-- When two lookups, in any history, give the same name to paths of different places, the name made from one
path without deduplication is the other's followed by `__dupX` and a number. -/
theorem C42_collision (c c1 c2 : Ctxt) (p q : Path) (n : String) (ops : List Op)
    (hp : c.findNameFor p = (some n, c1)) (hr : c1.run ops = .ok c2) (hq : (c2.findNameFor q).1 = some n) :
    SamePlace p q ∨ (∃ k : Nat, 0 < k ∧ synthesizeName p = synthesizeName q ++ "__dupX" ++ toString k) ∨
      (∃ k : Nat, 0 < k ∧ synthesizeName q = synthesizeName p ++ "__dupX" ++ toString k) := by
  obtain ⟨i, h1, h2⟩ := findNameFor_some (c := c) (p := p) (n := n) (by rw [hp])
  rw [hp] at h1
  obtain ⟨j, h3, h4⟩ := findNameFor_some hq
  have h5 := (h1.ext (run_ext hr)).ext (findNameFor_ext c2 q)
  rw [samePlace_iff]
  exact assigned_unique h5 h3 (h2.symm.trans h4)

/-- Paths of different places whose labels do not contain `dupX` never get the same name, in any history. -/
theorem C42_unique_partial (c c1 c2 : Ctxt) (p q : Path) (n m : String) (ops : List Op)
    (hp : c.findNameFor p = (some n, c1)) (hr : c1.run ops = .ok c2) (hq : (c2.findNameFor q).1 = some m)
    (cp : Path.Clean p) (cq : Path.Clean q) (hne : ¬ SamePlace p q) : n ≠ m := by
  rintro rfl
  obtain ⟨i, h1, h2⟩ := findNameFor_some (c := c) (p := p) (n := n) (by rw [hp])
  rw [hp] at h1
  obtain ⟨j, h3, h4⟩ := findNameFor_some hq
  have h5 := (h1.ext (run_ext hr)).ext (findNameFor_ext c2 q)
  exact hne (samePlace_iff.mpr (assigned_unique_clean h5 h3 (h2.symm.trans h4) cp cq))

/-- the history of the witness: `foo_bar`, then field `bar` of `foo`, then `foo_bar__dupX1` -/
def dupHistory : List Op :=
  [.push (.explicit "foo_bar"), .register, .escape, .push (.explicit "foo"), .push (.recordField "bar"),
   .register, .escape, .escape, .push (.explicit "foo_bar__dupX1"), .register]

/-- Three different registered paths, two of which get the same name. -/
theorem C42_unique_refuted :
    ∃ c c1 n c2, Ctxt.new.run dupHistory = .ok c ∧
      c.findNameFor [.explicit "foo_bar"] = (some "foo_bar", c1) ∧
      c1.findNameFor [.explicit "foo", .recordField "bar"] = (some n, c2) ∧
      (c2.findNameFor [.explicit "foo_bar__dupX1"]).1 = some n ∧
      ¬ SamePlace [.explicit "foo", .recordField "bar"] [.explicit "foo_bar__dupX1"] := by
  refine ⟨_, _, "foo_bar__dupX1", _, rfl, Prod.ext (by decide +kernel) rfl, Prod.ext (by decide +kernel) rfl,
    by decide +kernel, ?_⟩
  rw [samePlace_iff]
  decide +kernel

/-- the same history without the imitating label: different places sharing a raw name are told apart -/
example : ∃ c c1 c2, Ctxt.new.run (dupHistory.take 6) = .ok c ∧
    c.findNameFor [.explicit "foo_bar"] = (some "foo_bar", c1) ∧ c1.run [.escape, .incr, .register] = .ok c2 ∧
    (c2.findNameFor [.explicit "foo", .recordField "bar"]).1 = some "foo_bar__dupX1" :=
  ⟨_, _, _, rfl, Prod.ext (by decide +kernel) rfl, rfl, by decide +kernel⟩

/-! ### the current place -/

theorem run_append : ∀ (os os' : List Op) (c : Ctxt), c.run (os ++ os') = c.run os >>= fun c' => c'.run os'
  | [], _, _ => rfl
  | o :: os, os', c => by
    show (c.step o >>= fun c' => c'.run (os ++ os')) = (c.step o >>= fun c' => c'.run os) >>= fun c' => c'.run os'
    cases c.step o with
    | ok c' => exact run_append os os' c'
    | panic => rfl

theorem escape_append {c : Ctxt} {st : Path} {a : NameAtom} (h : c.stack = st ++ [a]) :
    c.escape = .ok { c with stack := st } := by
  unfold Ctxt.escape
  rw [h]
  cases st with
  | nil => rfl
  | cons b bs =>
    show Panicky.ok _ = _
    congr 2
    exact List.dropLast_concat (l₁ := b :: bs) (b := a)

mutual
theorem nested_run : ∀ {os : List Op}, Nested os → ∀ (c : Ctxt), ∃ c', c.run os = .ok c' ∧ c'.stack = c.stack
  | _, .nil, c => ⟨c, rfl, rfl⟩
  | _, .register h, c => by
    obtain ⟨c', h1, h2⟩ := nested_run h c.registerPath.2
    exact ⟨c', h1, h2⟩
  | _, .find (p := p) h, c => by
    obtain ⟨c', h1, h2⟩ := nested_run h (c.findNameFor p).2
    refine ⟨c', h1, h2.trans ?_⟩
    unfold Ctxt.findNameFor
    dsimp only
    split
    · rfl
    · split <;> rfl
  | _, .block (a := a) (body := body) (os := os) hb ho, c => by
    obtain ⟨c1, h1, h2⟩ := nested_run hb (c.pushAtom a)
    have h3 : c1.escape = .ok { c1 with stack := c.stack } := by
      exact escape_append (h2.trans rfl)
    obtain ⟨c2, h4, h5⟩ := nested_run ho { c1 with stack := c.stack }
    refine ⟨c2, ?_, h5⟩
    rw [show Op.push a :: body ++ Op.escape :: os = Op.push a :: (body ++ Op.escape :: os) from rfl, Ctxt.run]
    show (c.pushAtom a).run (body ++ Op.escape :: os) = _
    rw [run_append, h1]
    show (c1.escape >>= fun c' => Ctxt.run c' os) = _
    rw [h3]; exact h4
  | _, .counted (i := i) (body := body) (os := os) hb ho, c => by
    obtain ⟨c1, j, h1, h2⟩ := counted_run hb (c.pushAtom (.positional i)) c.stack i rfl
    have h3 : c1.escape = .ok { c1 with stack := c.stack } := by
      exact escape_append h2
    obtain ⟨c2, h4, h5⟩ := nested_run ho { c1 with stack := c.stack }
    refine ⟨c2, ?_, h5⟩
    rw [show Op.push (.positional i) :: body ++ Op.escape :: os
      = Op.push (.positional i) :: (body ++ Op.escape :: os) from rfl, Ctxt.run]
    show (c.pushAtom (.positional i)).run (body ++ Op.escape :: os) = _
    rw [run_append, h1]
    show (c1.escape >>= fun c' => Ctxt.run c' os) = _
    rw [h3]; exact h4

theorem counted_run : ∀ {os : List Op}, Counted os → ∀ (c : Ctxt) (st : Path) (i : Nat),
    c.stack = st ++ [.positional i] →
    ∃ c' j, c.run os = .ok c' ∧ c'.stack = st ++ [.positional j]
  | _, .nested h, c, st, i, hs => by
    obtain ⟨c', h1, h2⟩ := nested_run h c
    exact ⟨c', i, h1, h2.trans hs⟩
  | _, .next (os := os) (os' := os') h h', c, st, i, hs => by
    obtain ⟨c1, h1, h2⟩ := nested_run h c
    have h3 : c1.incrementIndex = { c1 with stack := st ++ [.positional (i + 1)] } := by
      unfold Ctxt.incrementIndex
      rw [h2, hs]
      simp
    obtain ⟨c2, j, h4, h5⟩ := counted_run h' { c1 with stack := st ++ [.positional (i + 1)] } st (i + 1) rfl
    refine ⟨c2, j, ?_, h5⟩
    rw [run_append, h1]
    show Ctxt.run c1.incrementIndex os' = _
    rw [h3]; exact h4
end

/-- Entering and leaving components in a well-nested way never aborts and leads back to the same place. -/
theorem C42_nested (ops : List Op) (h : Nested ops) (c : Ctxt) :
    ∃ c', c.run ops = .ok c' ∧ c'.stack = c.stack := nested_run h c

/-- two positions, in the first of them a field -/
example : Nested [.push (.positional 0), .push (.recordField "a"), .register, .escape, .incr, .register, .escape] :=
  .counted (body := [.push (.recordField "a"), .register, .escape, .incr, .register])
    (.next (os := [.push (.recordField "a"), .register, .escape]) (.block (body := [.register]) (.register .nil) .nil)
      (.nested (.register .nil))) .nil

/-! ### which of two places is better -/

theorem refinementRest_shift : ∀ (xs ys : List NameAtom), (∀ a ∈ xs, a.Plain) →
    isRefinementRest (xs ++ ys) = isRefinementRest ys
  | [], _, _ => rfl
  | x :: xs, ys, h => by
    have hx := h x (List.mem_cons_self ..)
    have ih := refinementRest_shift xs ys (fun a ha => h a (List.mem_cons_of_mem _ ha))
    cases x with
    | explicit n => exact absurd rfl (hx.1 n)
    | deadEnd => exact absurd rfl hx.2
    | _ => exact ih

theorem refinementLoop_shift : ∀ (xs ys xs' ys' : List NameAtom), xs.length = ys.length → (∀ a ∈ xs, a.Plain) →
    (∀ a ∈ ys, a.Plain) → isRefinementLoop (xs ++ xs') (ys ++ ys') = isRefinementLoop xs' ys'
  | [], [], _, _, _, _, _ => rfl
  | x :: xs, y :: ys, xs', ys', hl, h, h' => by
    have hx := h x (List.mem_cons_self ..)
    have hy := h' y (List.mem_cons_self ..)
    have ih := refinementLoop_shift xs ys xs' ys' (by simpa using hl) (fun a ha => h a (List.mem_cons_of_mem _ ha))
      (fun a ha => h' a (List.mem_cons_of_mem _ ha))
    cases x with
    | explicit n => exact absurd rfl (hx.1 n)
    | deadEnd => exact absurd rfl hx.2
    | _ =>
      cases y with
      | explicit n => exact absurd rfl (hy.1 n)
      | deadEnd => exact absurd rfl hy.2
      | _ => exact ih

theorem refinementLoop_left : ∀ (xs xs' : List NameAtom), (∀ a ∈ xs, a.Plain) →
    isRefinementLoop (xs ++ xs') [] = isRefinementLoop xs' []
  | [], _, _ => rfl
  | x :: xs, xs', h => by
    have hx := h x (List.mem_cons_self ..)
    have ih := refinementLoop_left xs xs' (fun a ha => h a (List.mem_cons_of_mem _ ha))
    cases x with
    | explicit n => exact absurd rfl (hx.1 n)
    | deadEnd => exact absurd rfl hx.2
    | _ => exact ih

/-- Between two places without dead ends, each starting at an explicitly given name, the one with fewer
components after the name is better. -/
theorem C42_better_shorter (m n : String) (p q : Path) (hp : ∀ a ∈ p, a.Plain) (hq : ∀ a ∈ q, a.Plain) :
    isRefinement (.explicit m :: p) (.explicit n :: q) = true ↔ q.length < p.length := by
  have hp' : ∀ a ∈ p.reverse, a.Plain := fun a ha => hp a (List.mem_reverse.1 ha)
  have hq' : ∀ a ∈ q.reverse, a.Plain := fun a ha => hq a (List.mem_reverse.1 ha)
  unfold isRefinement
  rw [List.reverse_cons, List.reverse_cons]
  rcases Nat.lt_trichotomy q.length p.length with h | h | h
  · have e : p.reverse = p.reverse.take q.length ++ p.reverse.drop q.length := (List.take_append_drop ..).symm
    have hne : p.reverse.drop q.length ≠ [] := by
      intro h0
      have := congrArg List.length h0
      simp at this; omega
    rw [e, List.append_assoc, refinementLoop_shift _ _ _ _ (by simp; omega)
      (fun a ha => hp' a (List.mem_of_mem_take ha)) hq']
    cases hd : p.reverse.drop q.length with
    | nil => exact absurd hd hne
    | cons a as =>
      have ha : a.Plain := hp' a (List.mem_of_mem_drop (by rw [hd]; exact List.mem_cons_self ..))
      cases a with
      | explicit l => exact absurd rfl (ha.1 l)
      | deadEnd => exact absurd rfl ha.2
      | _ => exact ⟨fun _ => h, fun _ => rfl⟩
  · rw [refinementLoop_shift _ _ _ _ (by simp [h]) hp' hq']
    have : isRefinementLoop [NameAtom.explicit m] [NameAtom.explicit n] = none := by
      show (if m = n then isRefinementLoop [] [] else none) = none
      split <;> rfl
    rw [this]
    simp [h]
  · have e : q.reverse = q.reverse.take p.length ++ q.reverse.drop p.length := (List.take_append_drop ..).symm
    have hne : q.reverse.drop p.length ≠ [] := by
      intro h0
      have := congrArg List.length h0
      simp at this; omega
    rw [e, List.append_assoc, refinementLoop_shift _ _ _ _ (by simp; omega) hp'
      (fun a ha => hq' a (List.mem_of_mem_take ha))]
    cases hd : q.reverse.drop p.length with
    | nil => exact absurd hd hne
    | cons a as =>
      have ha : a.Plain := hq' a (List.mem_of_mem_drop (by rw [hd]; exact List.mem_cons_self ..))
      cases a with
      | explicit l => exact absurd rfl (ha.1 l)
      | deadEnd => exact absurd rfl ha.2
      | _ => exact ⟨(fun h => by cases h), fun h' => by omega⟩

/-- A place with a dead end is worse than one without a dead end or explicit name as near to its end, and the
other is not worse than it. -/
theorem C42_better_dead_end (x p q y : Path) (hp : ∀ a ∈ p, a.Plain) (hq : ∀ a ∈ q, a.Plain)
    (h : q.length = p.length ∧ y.getLast? ≠ some .deadEnd ∨ q.length ≤ p.length ∧ y = []) :
    isRefinement (x ++ .deadEnd :: p) (y ++ q) = true ∧ isRefinement (y ++ q) (x ++ .deadEnd :: p) = false := by
  have hp' : ∀ a ∈ p.reverse, a.Plain := fun a ha => hp a (List.mem_reverse.1 ha)
  have hq' : ∀ a ∈ q.reverse, a.Plain := fun a ha => hq a (List.mem_reverse.1 ha)
  unfold isRefinement
  rw [List.reverse_append, List.reverse_append, List.reverse_cons, List.append_assoc]
  rcases h with ⟨h, hy⟩ | ⟨h, rfl⟩
  · rw [refinementLoop_shift _ _ _ _ (by simp [h]) hp' hq', refinementLoop_shift _ _ _ _ (by simp [h]) hq' hp']
    have hy' : y.reverse.head? ≠ some .deadEnd := by rwa [List.head?_reverse]
    cases hr : y.reverse with
    | nil => exact ⟨rfl, rfl⟩
    | cons a as =>
      rw [hr] at hy'
      cases a with
      | deadEnd => exact absurd rfl hy'
      | _ => exact ⟨rfl, rfl⟩
  · have e : p.reverse = p.reverse.take q.length ++ p.reverse.drop q.length := (List.take_append_drop ..).symm
    have ht : ∀ a ∈ p.reverse.take q.length, a.Plain := fun a ha => hp' a (List.mem_of_mem_take ha)
    have hd : ∀ a ∈ p.reverse.drop q.length, a.Plain := fun a ha => hp' a (List.mem_of_mem_drop ha)
    rw [e, List.append_assoc, refinementLoop_shift _ _ _ _ (by simp; omega) ht hq',
      refinementLoop_shift _ _ _ _ (by simp; omega) hq' ht]
    refine ⟨?_, ?_⟩
    · show (match isRefinementLoop (_ ++ _) [] with | some b => b | none => _) = true
      rw [refinementLoop_left _ _ hd]
      rfl
    · show (match isRefinementRest (_ ++ _) with | some b => b | none => _) = false
      rw [refinementRest_shift _ _ hd]
      rfl

example : isRefinement [.explicit "t", .deadEnd, .recordField "a"] [.explicit "t", .recordField "b"] = true ∧
    isRefinement [.explicit "t", .recordField "b"] [.explicit "t", .deadEnd, .recordField "a"] = false :=
  C42_better_dead_end [.explicit "t"] [.recordField "a"] [.recordField "b"] [.explicit "t"]
    (by simp [NameAtom.Plain]) (by simp [NameAtom.Plain]) (.inl ⟨rfl, by simp⟩)

/-- "Better" is not an order: two places with dead ends equally near to their ends are each better than the
other, and than themselves. -/
theorem C42_better_order_refuted : ∃ x y : Path, isRefinement x y = true ∧ isRefinement y x = true ∧
    isRefinement x x = true :=
  ⟨[.explicit "a", .deadEnd], [.explicit "b", .deadEnd], rfl, rfl, rfl⟩

/-! ### names of declarations -/

variable {D : Type} [DecidableEq D]

theorem lookup_insert {K V : Type} [DecidableEq K] (k k' : K) (v : V) :
    ∀ l : List (K × V), lookup k' (insertKey k v l) = if k = k' then some v else lookup k' l
  | [] => by simp [insertKey, lookup]
  | (k0, v0) :: l => by
    unfold insertKey
    by_cases h : k0 = k
    · subst h
      rw [if_pos rfl]
      unfold lookup
      by_cases h' : k0 = k' <;> simp [h']
    · rw [if_neg h]
      unfold lookup
      rw [lookup_insert k k' v l]
      by_cases h' : k0 = k'
      · subst h'
        simp [Ne.symm h]
      · simp [h']

theorem mem_insertKey {K V : Type} [DecidableEq K] {k k' : K} {v v' : V} :
    ∀ {l : List (K × V)}, (k', v') ∈ insertKey k v l → (k' = k ∧ v' = v) ∨ (k', v') ∈ l
  | [], h => by
    simp only [insertKey, List.mem_singleton, Prod.mk.injEq] at h
    exact .inl h
  | (k0, v0) :: l, h => by
    unfold insertKey at h
    split at h
    · rcases List.mem_cons.mp h with h | h
      · exact .inl (by simpa using h)
      · exact .inr (.tail _ h)
    · rcases List.mem_cons.mp h with h | h
      · exact .inr (h ▸ .head _)
      · exact (mem_insertKey h).imp id (.tail _)

theorem insertKey_nodup {K V : Type} [DecidableEq K] {k : K} {v : V} :
    ∀ {l : List (K × V)}, (l.map Prod.fst).Nodup → ((insertKey k v l).map Prod.fst).Nodup
  | [], _ => by simp [insertKey]
  | (k0, v0) :: l, h => by
    simp only [List.map_cons, List.nodup_cons] at h
    unfold insertKey
    split
    · rename_i e
      subst e
      simpa using h
    · rename_i hne
      simp only [List.map_cons, List.nodup_cons]
      refine ⟨?_, insertKey_nodup h.2⟩
      intro hm
      obtain ⟨⟨k', v'⟩, h1, h2⟩ := List.mem_map.mp hm
      rcases mem_insertKey h1 with h3 | h3
      · exact hne (h2.symm.trans h3.1)
      · exact h.1 (List.mem_map.mpr ⟨_, h3, h2⟩)

theorem lookup_mem {K V : Type} [DecidableEq K] {k : K} {v : V} :
    ∀ {l : List (K × V)}, lookup k l = some v → (k, v) ∈ l
  | [], h => nomatch h
  | (k0, v0) :: l, h => by
    unfold lookup at h
    split at h
    · rename_i e
      subst e
      cases h
      exact .head _
    · exact .tail _ (lookup_mem h)

/-- the invariant of the generator, against the declarations met so far -/
structure Gen.OK (g : Gen D) (seen : List (D × Path)) : Prop where
  rev : ∀ d ix p, lookup d g.revMap = some (ix, p) →
    trim p = p ∧ ix < g.ctr ∧ (∃ i, g.ctxt.Assigned p i) ∧ ∃ p0, (d, p0) ∈ seen ∧ trim p0 = p
  inj : ∀ d d' ix p p', lookup d g.revMap = some (ix, p) → lookup d' g.revMap = some (ix, p') → d = d'
  remap : ∀ n p, (n, p) ∈ g.nameRemap → g.ctxt.Known p ∧ trim p = p ∧
    ∃ d ix p0 i, lookup d g.revMap = some (ix, p0) ∧ g.ctxt.Assigned p0 i ∧ n = dedup (synthesizeName p0) i ∧
      ∃ p1, (d, p1) ∈ seen ∧ trim p1 = p
  keys : (g.nameRemap.map Prod.fst).Nodup

theorem Gen.OK.ext {g : Gen D} {seen : List (D × Path)} (h : g.OK seen) {c : Ctxt} (e : g.ctxt.Ext c) :
    ({ g with ctxt := c } : Gen D).OK seen := by
  refine ⟨fun d ix p hl => ?_, h.inj, fun n p hm => ?_, h.keys⟩
  · obtain ⟨h1, h2, ⟨i, h3⟩, h4⟩ := h.rev d ix p hl
    exact ⟨h1, h2, ⟨i, h3.ext e⟩, h4⟩
  · obtain ⟨h1, h2, d, ix, p0, i, h3, h4, h5⟩ := h.remap n p hm
    exact ⟨h1.ext e, h2, d, ix, p0, i, h3, h4.ext e, h5⟩

theorem Gen.OK.mono {g : Gen D} {seen seen' : List (D × Path)} (h : g.OK seen) (hs : ∀ x ∈ seen, x ∈ seen') :
    g.OK seen' := by
  refine ⟨fun d ix p hl => ?_, h.inj, fun n p hm => ?_, h.keys⟩
  · obtain ⟨h1, h2, h3, p0, h4, h5⟩ := h.rev d ix p hl
    exact ⟨h1, h2, h3, p0, hs _ h4, h5⟩
  · obtain ⟨h1, h2, d, ix, p0, i, h3, h4, h5, p1, h6, h7⟩ := h.remap n p hm
    exact ⟨h1, h2, d, ix, p0, i, h3, h4, h5, p1, hs _ h6, h7⟩

theorem refinePath_total {c : Ctxt} {x y : Path} (hx : c.Known x) (hy : c.Known y) :
    ∃ z, c.refinePath x y = .ok z ∧ (z = x ∨ z = y) := by
  obtain ⟨h1, h2, _⟩ := hx
  obtain ⟨h3, h4, _⟩ := hy
  unfold Ctxt.refinePath
  split
  · simp only [Ctxt.getPriority, h2, h4, bind, Panicky.bind]
    split
    · split <;> exact ⟨_, rfl, by simp⟩
    · exact ⟨_, rfl, by simp⟩
    · exact ⟨_, rfl, by simp⟩
  · split <;> exact ⟨_, rfl, by simp⟩

theorem getName_ok {g : Gen D} {seen : List (D × Path)} (h : g.OK seen) (d : D) :
    ∃ n ix b g', g.getName d = .ok ((n, ix, b), g') ∧ g'.OK (seen ++ [(d, g.ctxt.stack)]) ∧
      g.ctxt.Ext g'.ctxt ∧ g'.ctxt.stack = g.ctxt.stack ∧ (b = true ↔ lookup d g.revMap = none) ∧
      (∃ p i, lookup d g'.revMap = some (ix, p) ∧ g'.ctxt.Assigned p i ∧ n = dedup (synthesizeName p) i) ∧
      (∀ d' x, lookup d' g.revMap = some x → lookup d' g'.revMap = some x) := by
  have hstack_f : ∀ (c : Ctxt) p, (c.findNameFor p).2.stack = c.stack := by
    intro c p
    unfold Ctxt.findNameFor
    dsimp only
    split
    · rfl
    · split <;> rfl
  have hstack_r : ∀ c : Ctxt, c.registerPath.2.stack = c.stack := fun _ => rfl
  cases hl : lookup d g.revMap with
  | some x =>
    obtain ⟨ix, p⟩ := x
    obtain ⟨h1, h2, ⟨i, h3⟩, h4⟩ := h.rev d ix p hl
    have hf := findNameFor_assigned h3
    have e1 := findNameFor_ext g.ctxt p
    have e2 := registerPath_ext (g.ctxt.findNameFor p).2
    have e := e1.trans e2
    have hstk : (g.ctxt.findNameFor p).2.registerPath.2.stack = g.ctxt.stack := by
      rw [hstack_r, hstack_f]
    have hp1 : (g.ctxt.findNameFor p).2.registerPath.1 = trim g.ctxt.stack := by
      unfold Ctxt.registerPath
      rw [hstack_f]
    have hk1 : (g.ctxt.findNameFor p).2.registerPath.2.Known (trim g.ctxt.stack) := by
      have := registerPath_known (g.ctxt.findNameFor p).2
      rw [hstack_f] at this
      exact this.of_trim (trim_trim _).symm
    have hbest : ∃ z, (match lookup (dedup (synthesizeName p) i) g.nameRemap with
        | some prior => (g.ctxt.findNameFor p).2.registerPath.2.refinePath prior
            (g.ctxt.findNameFor p).2.registerPath.1
        | none => .ok (g.ctxt.findNameFor p).2.registerPath.1) = Panicky.ok z ∧
        (z = trim g.ctxt.stack ∨ (dedup (synthesizeName p) i, z) ∈ g.nameRemap) := by
      rw [hp1]
      cases hlk : lookup (dedup (synthesizeName p) i) g.nameRemap with
      | none => exact ⟨_, rfl, .inl rfl⟩
      | some prior =>
        have hmem := lookup_mem hlk
        obtain ⟨hk, _⟩ := h.remap _ _ hmem
        obtain ⟨z, hz, hz'⟩ := refinePath_total (hk.ext e) hk1
        refine ⟨z, hz, ?_⟩
        rcases hz' with rfl | rfl
        · exact .inr hmem
        · exact .inl rfl
    obtain ⟨z, hz, hz'⟩ := hbest
    refine ⟨dedup (synthesizeName p) i, ix, false,
      { g with ctxt := (g.ctxt.findNameFor p).2.registerPath.2,
               nameRemap := insertKey (dedup (synthesizeName p) i) z g.nameRemap }, ?_, ?_, e, hstk, by simp,
      ⟨p, i, hl, h3.ext e, rfl⟩, fun _ _ hx => hx⟩
    · unfold Gen.getName
      simp only [hl, hf]
      cases hlk : lookup (dedup (synthesizeName p) i) g.nameRemap with
      | none =>
        rw [hlk] at hz
        exact Panicky.bind_eq_ok.2 ⟨z, hz, rfl⟩
      | some prior =>
        rw [hlk] at hz
        exact Panicky.bind_eq_ok.2 ⟨z, hz, rfl⟩
    · have h' := (h.ext e).mono (seen' := seen ++ [(d, g.ctxt.stack)]) (fun x hx => List.mem_append.mpr (.inl hx))
      refine ⟨h'.rev, h'.inj, fun n q hm => ?_, insertKey_nodup h.keys⟩
      rcases mem_insertKey hm with ⟨rfl, rfl⟩ | hm
      · rcases hz' with rfl | hz'
        · exact ⟨hk1, trim_trim _, d, ix, p, i, hl, h3.ext e, rfl, g.ctxt.stack, by simp, rfl⟩
        · exact h'.remap _ _ hz'
      · exact h'.remap n q hm
  | none =>
    have hk := registerPath_known g.ctxt
    have hk' : g.ctxt.registerPath.2.Known (trim g.ctxt.stack) := hk.of_trim (trim_trim _).symm
    have hp1 : g.ctxt.registerPath.1 = trim g.ctxt.stack := rfl
    obtain ⟨n, hn⟩ := findNameFor_known hk'
    obtain ⟨i, h1, h2⟩ := findNameFor_some hn
    have e1 := registerPath_ext g.ctxt
    have e2 := findNameFor_ext g.ctxt.registerPath.2 (trim g.ctxt.stack)
    have e := e1.trans e2
    refine ⟨n, g.ctr, true, ⟨(g.ctxt.registerPath.2.findNameFor (trim g.ctxt.stack)).2, g.ctr + 1,
      insertKey d (g.ctr, trim g.ctxt.stack) g.revMap, insertKey n (trim g.ctxt.stack) g.nameRemap⟩,
      ?_, ?_, e, ?_, by simp, ⟨trim g.ctxt.stack, i, ?_, h1, h2⟩, ?_⟩
    · unfold Gen.getName
      simp only [hl, hp1, hn]
    · have h' := (h.ext e).mono (seen' := seen ++ [(d, g.ctxt.stack)]) (fun x hx => List.mem_append.mpr (.inl hx))
      refine ⟨fun d' ix p hd => ?_, fun d1 d2 ix p1 p2 hd1 hd2 => ?_, fun n' q hm => ?_, insertKey_nodup h.keys⟩
      · dsimp only at hd
        rw [lookup_insert] at hd
        split at hd
        · rename_i e
          subst e
          cases hd
          exact ⟨trim_trim _, Nat.lt_succ_self _, ⟨i, h1⟩, g.ctxt.stack, by simp, rfl⟩
        · obtain ⟨h3, h4, h5, h6⟩ := h'.rev d' ix p hd
          exact ⟨h3, Nat.lt_succ_of_lt h4, h5, h6⟩
      · dsimp only at hd1 hd2
        rw [lookup_insert] at hd1 hd2
        split at hd1
        · rename_i e1
          split at hd2
          · rename_i e2
            exact e1.symm.trans e2
          · cases hd1
            have := (h.rev _ _ _ hd2).2.1
            omega
        · split at hd2
          · cases hd2
            have := (h.rev _ _ _ hd1).2.1
            omega
          · exact h.inj d1 d2 ix p1 p2 hd1 hd2
      · rcases mem_insertKey hm with ⟨rfl, rfl⟩ | hm
        · exact ⟨hk'.ext e2, trim_trim _, d, g.ctr, trim g.ctxt.stack, i, by
            dsimp only; rw [lookup_insert, if_pos rfl], h1, h2, g.ctxt.stack, by simp, rfl⟩
        · obtain ⟨h3, h4, d', ix, p0, j, h5, h6, h7, h8⟩ := h'.remap n' q hm
          refine ⟨h3, h4, d', ix, p0, j, ?_, h6, h7, h8⟩
          dsimp only at h5 ⊢
          rw [lookup_insert, if_neg]
          · exact h5
          · rintro rfl
            rw [hl] at h5
            cases h5
    · rw [hstack_f, hstack_r]
    · dsimp only
      rw [lookup_insert, if_pos rfl]
    · intro d' x hx
      dsimp only
      rw [lookup_insert, if_neg]
      · exact hx
      · rintro rfl
        rw [hl] at hx
        cases hx

theorem new_ok : (Gen.new D).OK [] :=
  ⟨fun _ _ _ h => (nomatch h), fun _ _ _ _ _ h => (nomatch h), fun _ _ h => (nomatch h), List.nodup_nil⟩

/-- what a history preserves -/
theorem run_ok : ∀ {os : List (GOp D)} {g g' : Gen D} {seen : List (D × Path)}, g.OK seen → g.run os = .ok g' →
    g'.OK (seen ++ g.visits os) ∧ g.ctxt.Ext g'.ctxt ∧
      ∀ d x, lookup d g.revMap = some x → lookup d g'.revMap = some x
  | [], g, g', seen, h, hr => by
    cases hr
    simpa [Gen.visits] using ⟨h, Ctxt.Ext.refl _⟩
  | o :: os, g, g', seen, h, hr => by
    obtain ⟨g1, h1, h2⟩ := Panicky.bind_eq_ok.1 hr
    cases o with
    | ctx o =>
      obtain ⟨c, hc, h1'⟩ := Panicky.bind_eq_ok.1 h1
      cases h1'
      have e := step_ext hc
      obtain ⟨h3, h4, h5⟩ := run_ok (h.ext e) h2
      refine ⟨?_, e.trans h4, h5⟩
      unfold Gen.visits
      rw [h1]
      simpa using h3
    | get d =>
      obtain ⟨n, ix, b, g2, h3, h4, h5, _, _, _, h6⟩ := getName_ok h d
      have : g1 = g2 := by
        simp only [Gen.step, h3] at h1
        cases h1
        rfl
      subst this
      obtain ⟨h7, h8, h9⟩ := run_ok h4 h2
      refine ⟨?_, h5.trans h8, fun d' x hx => h9 d' x (h6 d' x hx)⟩
      unfold Gen.visits
      rw [h1]
      simpa using h7

/-- Naming a declaration never aborts, whatever the history, and neither does making the renaming table. -/
theorem C42_types_total (ops : List (GOp D)) (g : Gen D) (hr : (Gen.new D).run ops = .ok g) (d : D) :
    (∃ r, g.getName d = .ok r) ∧ ∃ t, g.renamingTable = .ok t := by
  have h := (run_ok new_ok hr).1
  refine ⟨?_, ?_⟩
  · obtain ⟨n, ix, b, g', h1, _⟩ := getName_ok h d
    exact ⟨_, h1⟩
  · have key : ∀ (l : List (String × Path)) (c : Ctxt), (∀ n p, (n, p) ∈ l → c.Known p) →
        ∃ t, renamingLoop c l = .ok t := by
      intro l
      induction l with
      | nil => exact fun c _ => ⟨_, rfl⟩
      | cons x l ih =>
        intro c hk
        obtain ⟨k, v⟩ := x
        obtain ⟨n, hn⟩ := findNameFor_known (hk k v (.head _))
        obtain ⟨t, ht⟩ := ih (c.findNameFor v).2 fun n p hm => (hk n p (.tail _ hm)).ext (findNameFor_ext c v)
        refine ⟨((k, n) :: t.1, t.2), ?_⟩
        unfold renamingLoop
        simp only [hn, Panicky.unwrap, ht, bind, Panicky.bind]
    obtain ⟨t, ht⟩ := key g.nameRemap g.ctxt fun n p hm => (h.remap n p hm).1
    exact ⟨t.1, by unfold Gen.renamingTable; rw [ht]; rfl⟩

/-- A declaration keeps its first-pass name and its index; it is reported as new only the first time. -/
theorem C42_types_stable (ops ops' : List (GOp D)) (g g1 g2 g3 : Gen D) (d : D) (n n' : String) (ix ix' : Nat)
    (b b' : Bool) (hr : (Gen.new D).run ops = .ok g) (h1 : g.getName d = .ok ((n, ix, b), g1))
    (hr' : g1.run ops' = .ok g2) (h2 : g2.getName d = .ok ((n', ix', b'), g3)) :
    n' = n ∧ ix' = ix ∧ b' = false := by
  have h := (run_ok new_ok hr).1
  obtain ⟨m, jx, b0, g1', e1, ok1, _, _, _, ⟨p, i, l1, a1, rfl⟩, _⟩ := getName_ok h d
  rw [h1] at e1
  cases e1
  obtain ⟨ok2, ext2, keep2⟩ := run_ok ok1 hr'
  obtain ⟨m', jx', b0', g3', e2, _, ext3, _, hb, ⟨p', i', l2, a2, rfl⟩, keep3⟩ := getName_ok ok2 d
  rw [h2] at e2
  cases e2
  have hl2 := keep2 _ _ l1
  have hl3 := keep3 _ _ hl2
  rw [hl3] at l2
  cases l2
  refine ⟨?_, rfl, ?_⟩
  · have a3 := (a1.ext ext2).ext ext3
    obtain ⟨hp, t1, t2⟩ := a3
    obtain ⟨hp', t3, t4⟩ := a2
    rw [t1] at t3
    cases t3
    rw [t2] at t4
    cases t4
    rfl
  · cases b' with
    | false => rfl
    | true =>
      have := hb.mp rfl
      rw [hl2] at this
      cases this

/-- Different declarations have different indices; and different first-pass names, when no two of them were
met at the same place and labels do not contain `dupX`. -/
theorem C42_types_unique_partial (ops ops' : List (GOp D)) (g g1 g2 g3 : Gen D) (d d' : D) (n n' : String)
    (ix ix' : Nat) (b b' : Bool) (hr : (Gen.new D).run ops = .ok g)
    (h1 : g.getName d = .ok ((n, ix, b), g1)) (hr' : g1.run ops' = .ok g2)
    (h2 : g2.getName d' = .ok ((n', ix', b'), g3)) (hne : d ≠ d') :
    ix ≠ ix' ∧
    ((∀ x y, x ∈ (Gen.new D).visits (ops ++ .get d :: ops' ++ [.get d']) →
        y ∈ (Gen.new D).visits (ops ++ .get d :: ops' ++ [.get d']) → SamePlace x.2 y.2 → x.1 = y.1) →
      (∀ x ∈ (Gen.new D).visits (ops ++ .get d :: ops' ++ [.get d']), Path.Clean x.2) → n ≠ n') := by
  have hrun : ∀ (os os' : List (GOp D)) (g g' : Gen D), g.run os = .ok g' →
      g.run (os ++ os') = g'.run os' ∧ g.visits (os ++ os') = g.visits os ++ g'.visits os' := by
    intro os
    induction os with
    | nil => intro os' g g' h; cases h; exact ⟨rfl, rfl⟩
    | cons o os ih =>
      intro os' g g' h
      obtain ⟨g1, h1, h2⟩ := Panicky.bind_eq_ok.1 h
      obtain ⟨e1, e2⟩ := ih os' g1 g' h2
      constructor
      · show (g.step o >>= fun g' => Gen.run g' (os ++ os')) = _
        rw [h1]
        exact e1
      · simp only [List.cons_append, Gen.visits, h1, e2, List.append_assoc]
  have s1 : g.run [.get d] = .ok g1 := by
    simp only [Gen.run, Gen.step, h1]
    rfl
  have s2 : g2.run [.get d'] = .ok g3 := by
    simp only [Gen.run, Gen.step, h2]
    rfl
  have hall : (Gen.new D).run (ops ++ .get d :: ops' ++ [.get d']) = .ok g3 := by
    rw [List.append_assoc, (hrun ops _ _ _ hr).1]
    have : (GOp.get d :: ops' ++ [GOp.get d']) = [GOp.get d] ++ (ops' ++ [GOp.get d']) := rfl
    rw [this, (hrun [.get d] _ _ _ s1).1, (hrun ops' _ _ _ hr').1, s2]
  have h := (run_ok new_ok hr).1
  obtain ⟨m, jx, b0, g1', e1, ok1, _, _, _, ⟨p, i, l1, a1, rfl⟩, _⟩ := getName_ok h d
  rw [h1] at e1
  cases e1
  obtain ⟨ok2, ext2, keep2⟩ := run_ok ok1 hr'
  obtain ⟨m', jx', b0', g3', e2, ok3, ext3, _, hb, ⟨p', i', l2, a2, rfl⟩, keep3⟩ := getName_ok ok2 d'
  rw [h2] at e2
  cases e2
  have hl3 := keep3 _ _ (keep2 _ _ l1)
  have okF := (run_ok new_ok hall).1
  rw [List.nil_append] at okF
  refine ⟨?_, fun hinj hclean heq => ?_⟩
  · rintro rfl
    exact hne (okF.inj _ _ _ _ _ hl3 l2)
  · obtain ⟨t1, _, _, q, hq, hq'⟩ := okF.rev _ _ _ hl3
    obtain ⟨t1', _, _, q', hqm, hqm'⟩ := okF.rev _ _ _ l2
    have aq := ((a1.ext ext2).ext ext3).of_trim (q := q) (by rw [hq', t1])
    have aq' := a2.of_trim (q := q') (by rw [hqm', t1'])
    have eq1 : synthesizeName p = synthesizeName q := by rw [← hq', synthesize_trim]
    have eq2 : synthesizeName p' = synthesizeName q' := by rw [← hqm', synthesize_trim]
    have := assigned_unique_clean aq aq' (by rw [← eq1, ← eq2]; exact heq) (hclean _ hq) (hclean _ hqm)
    exact hne (hinj _ _ hq hqm (samePlace_iff.mpr this))

/-- Final names: under the same conditions, no two first-pass names are renamed to the same final name. -/
theorem C42_renaming_partial (ops : List (GOp D)) (g : Gen D) (hr : (Gen.new D).run ops = .ok g)
    (t : List (String × String)) (ht : g.renamingTable = .ok t)
    (hinj : ∀ x y, x ∈ (Gen.new D).visits ops → y ∈ (Gen.new D).visits ops → SamePlace x.2 y.2 → x.1 = y.1)
    (hclean : ∀ x ∈ (Gen.new D).visits ops, Path.Clean x.2) (k k' r : String)
    (hk : (k, r) ∈ t) (hk' : (k', r) ∈ t) : k = k' := by
  have h := (run_ok new_ok hr).1
  rw [List.nil_append] at h
  -- every entry of the table names a path of the remapping, in one final context
  have key : ∀ (l : List (String × Path)) (c c' : Ctxt) (t : List (String × String)),
      renamingLoop c l = .ok (t, c') → c.Ext c' ∧ ∀ k r, (k, r) ∈ t → ∃ p i, (k, p) ∈ l ∧
        c'.Assigned p i ∧ r = dedup (synthesizeName p) i := by
    intro l
    induction l with
    | nil => intro c c' t h; cases h; exact ⟨.refl _, fun _ _ h => nomatch h⟩
    | cons x l ih =>
      intro c c' t h
      obtain ⟨k, v⟩ := x
      obtain ⟨n, hn, h⟩ := Panicky.bind_eq_ok.1 h
      obtain ⟨⟨t', c1⟩, ht', h⟩ := Panicky.bind_eq_ok.1 h
      cases h
      obtain ⟨e, hall⟩ := ih _ _ _ ht'
      refine ⟨(findNameFor_ext c v).trans e, fun k' r' hm => ?_⟩
      rcases List.mem_cons.mp hm with hm | hm
      · cases hm
        have hn' : (c.findNameFor v).1 = some n := by
          unfold Panicky.unwrap at hn
          split at hn
          · rename_i a ha
            cases hn
            exact ha
          · cases hn
        obtain ⟨i, h1, h2⟩ := findNameFor_some hn'
        exact ⟨v, i, .head _, h1.ext e, h2⟩
      · obtain ⟨p, i, h1, h2⟩ := hall k' r' hm
        exact ⟨p, i, .tail _ h1, h2⟩
  obtain ⟨⟨t', c'⟩, hl, ht'⟩ := Panicky.bind_eq_ok.1 ht
  cases ht'
  obtain ⟨e, hall⟩ := key _ _ _ _ hl
  obtain ⟨p, i, m1, a1, r1⟩ := hall k r hk
  obtain ⟨p', i', m2, a2, r2⟩ := hall k' r hk'
  obtain ⟨_, t1, d, ix, p0, j, l1, b1, n1, q, hq, hq'⟩ := h.remap _ _ m1
  obtain ⟨_, t1', d', ix', p0', j', l1', b1', n1', q', hqm, hqm'⟩ := h.remap _ _ m2
  have aq := a1.of_trim (q := q) (by rw [hq', t1])
  have aq' := a2.of_trim (q := q') (by rw [hqm', t1'])
  have eq1 : synthesizeName p = synthesizeName q := by rw [← hq', synthesize_trim]
  have eq2 : synthesizeName p' = synthesizeName q' := by rw [← hqm', synthesize_trim]
  have := assigned_unique_clean aq aq' (by rw [← eq1, ← eq2]; exact r1.symm.trans r2) (hclean _ hq)
    (hclean _ hqm)
  have hd : d = d' := hinj _ _ hq hqm (samePlace_iff.mpr this)
  subst hd
  rw [l1] at l1'
  cases l1'
  rw [n1, n1']
  obtain ⟨hp, t3, t4⟩ := b1
  obtain ⟨hp', t5, t6⟩ := b1'
  rw [t3] at t5
  cases t5
  rw [t4] at t6
  cases t6
  rfl

/-- Two different declarations met at the same place get the same name. -/
theorem C42_types_unique_refuted :
    ((Gen.new Nat).run [.ctx (.push (.explicit "foo"))] >>= fun g => g.getName 1 >>= fun r =>
      r.2.getName 2 >>= fun s => .ok (r.1, s.1)) = .ok (("foo", 0, true), ("foo", 1, true)) := by
  decide +kernel

/-- a history in which two declarations have different names, and the second is renamed to a better path -/
example : ((Gen.new Nat).run
      [.ctx (.push (.explicit "foo")), .get 1, .ctx (.push (.recordField "x")), .get 2, .ctx .escape,
       .ctx .escape, .ctx (.push (.explicit "bar")), .get 2] >>= fun g => g.renamingTable) =
    .ok [("foo", "foo"), ("foo_x", "bar")] := by
  decide +kernel

end Names
end Doodle
