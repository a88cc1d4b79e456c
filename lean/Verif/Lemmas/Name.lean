import Verif.Spec.Name

/-! Lemmas about generated names. -/

namespace Doodle
namespace Names

/-! ### trimming -/

theorem trimLoop_local (p : Path) : ∀ ix, ix ≤ p.length → Anonymous (p.drop ix) → Local p (trimLoop p ix)
  | 0, _, h => by
    left
    simpa [trimLoop] using h
  | ix + 1, hle, h => by
    have hlt : ix < p.length := by omega
    have hdrop : p.drop ix = p[ix] :: p.drop (ix + 1) := List.drop_eq_getElem_cons hlt
    unfold trimLoop
    rw [List.getElem?_eq_getElem hlt]
    split
    · rename_i n hn
      have hn : p[ix] = .explicit n := Option.some.inj hn
      right
      refine ⟨p.take ix, n, p.drop (ix + 1), ?_, h, ?_⟩
      · rw [← hn, ← hdrop, List.take_append_drop]
      · rw [hdrop, hn]
    · rename_i hn
      apply trimLoop_local p ix (by omega)
      intro n hm
      rw [hdrop] at hm
      rcases List.mem_cons.mp hm with hm | hm
      · exact hn n (by rw [hm])
      · exact h n hm

theorem trim_local (p : Path) : Local p (trim p) :=
  trimLoop_local p p.length (Nat.le_refl _) (by simp [Anonymous])

theorem explicit_split_unique : ∀ {pre pre' : Path} {n n' : String} {suf suf' : Path},
    pre ++ NameAtom.explicit n :: suf = pre' ++ NameAtom.explicit n' :: suf' → Anonymous suf → Anonymous suf' →
    n = n' ∧ suf = suf'
  | [], [], _, _, _, _, h, _, _ => by
    simp only [List.nil_append, List.cons.injEq, NameAtom.explicit.injEq] at h
    exact h
  | [], a :: pre', n, n', suf, suf', h, hs, _ => by
    simp only [List.nil_append, List.cons_append, List.cons.injEq] at h
    exact absurd (by rw [h.2]; simp) (hs n')
  | a :: pre, [], n, n', suf, suf', h, _, hs => by
    simp only [List.nil_append, List.cons_append, List.cons.injEq] at h
    exact absurd (by rw [← h.2]; simp) (hs n)
  | a :: pre, b :: pre', n, n', suf, suf', h, h1, h2 => by
    simp only [List.cons_append, List.cons.injEq] at h
    exact explicit_split_unique h.2 h1 h2

theorem Local.unique {p s t : Path} (hs : Local p s) (ht : Local p t) : s = t := by
  rcases hs with ⟨rfl, hs⟩ | ⟨pre, n, suf, hp, ha, rfl⟩
  · rcases ht with ⟨rfl, _⟩ | ⟨pre, n, suf, hp, _, rfl⟩
    · rfl
    · exact absurd (by rw [hp]; simp) (hs n)
  · rcases ht with ⟨rfl, ht⟩ | ⟨pre', n', suf', hp', ha', rfl⟩
    · exact absurd (by rw [hp]; simp) (ht n)
    · obtain ⟨rfl, rfl⟩ := explicit_split_unique (hp.symm.trans hp') ha ha'
      rfl

theorem local_iff {p s : Path} : Local p s ↔ s = trim p :=
  ⟨fun h => h.unique (trim_local p), fun h => h ▸ trim_local p⟩

theorem samePlace_iff {p q : Path} : SamePlace p q ↔ trim p = trim q := by
  unfold SamePlace
  simp only [local_iff]
  exact ⟨fun ⟨s, h1, h2⟩ => h1.symm.trans h2, fun h => ⟨trim p, rfl, h⟩⟩

theorem trim_trim (p : Path) : trim (trim p) = trim p := by
  apply Eq.symm
  apply local_iff.mp
  rcases trim_local p with ⟨h, ha⟩ | ⟨pre, n, suf, _, ha, h⟩
  · rw [h]
    exact .inl ⟨rfl, ha⟩
  · rw [h]
    exact .inr ⟨[], n, suf, rfl, ha, rfl⟩

theorem synthesizeLoop_append : ∀ (xs ys : Path) (n : String) (b : String), Anonymous xs →
    synthesizeLoop (xs ++ .explicit n :: ys) b = synthesizeLoop (xs ++ [.explicit n]) b
  | [], _, _, _, _ => rfl
  | x :: xs, ys, n, b, h => by
    have h' : Anonymous xs := fun m hm => h m (.tail _ hm)
    cases x with
    | explicit m => exact absurd (.head _) (h m)
    | _ => exact synthesizeLoop_append xs ys n _ h'

theorem synthesize_trim (p : Path) : synthesizeName (trim p) = synthesizeName p := by
  rcases trim_local p with ⟨h, _⟩ | ⟨pre, n, suf, hp, ha, h⟩
  · rw [h]
  · rw [h]
    conv => rhs; rw [hp]
    unfold synthesizeName
    have ha' : Anonymous suf.reverse := fun m hm => ha m (List.mem_reverse.mp hm)
    have := synthesizeLoop_append suf.reverse pre.reverse n "" ha'
    simp only [List.reverse_append, List.reverse_cons, List.append_assoc, List.singleton_append] at this ⊢
    exact this.symm

/-! ### the state only grows -/

/-- the heap of `c'` at every key extends that of `c` -/
structure Heap.Ext (h h' : Heap) : Prop where
  fixed : ∃ more, h'.fixed = h.fixed ++ more
  known : ∀ p, p ∈ h.fixed ∨ p ∈ h.floating → p ∈ h'.fixed ∨ p ∈ h'.floating

theorem Heap.Ext.refl (h : Heap) : h.Ext h := ⟨⟨[], by simp⟩, fun _ h => h⟩

theorem Heap.Ext.trans {h h' h'' : Heap} (a : h.Ext h') (b : h'.Ext h'') : h.Ext h'' := by
  obtain ⟨x, hx⟩ := a.fixed
  obtain ⟨y, hy⟩ := b.fixed
  exact ⟨⟨x ++ y, by rw [hy, hx, List.append_assoc]⟩, fun p hp => b.known p (a.known p hp)⟩

def Ctxt.Ext (c c' : Ctxt) : Prop := ∀ k h, c.table k = some h → ∃ h', c'.table k = some h' ∧ h.Ext h'

theorem Ctxt.Ext.refl (c : Ctxt) : c.Ext c := fun _ h hk => ⟨h, hk, .refl h⟩

theorem Ctxt.Ext.trans {c c' c'' : Ctxt} (a : c.Ext c') (b : c'.Ext c'') : c.Ext c'' := by
  intro k h hk
  obtain ⟨h', hk', e⟩ := a k h hk
  obtain ⟨h'', hk'', e'⟩ := b k h' hk'
  exact ⟨h'', hk'', e.trans e'⟩

theorem Ctxt.Ext.set {c : Ctxt} {k : String} {h : Heap} (e : ∀ h0, c.table k = some h0 → h0.Ext h) :
    c.Ext (c.set k h) := by
  intro k' h' hk'
  by_cases hc : k' = k
  · subst hc
    exact ⟨h, by simp [Ctxt.set], e h' hk'⟩
  · exact ⟨h', by simp [Ctxt.set, hc, hk'], .refl h'⟩

theorem Heap.fix_ext (h : Heap) (p : Path) : h.Ext (h.fix p).2 := by
  unfold Heap.fix
  split
  · exact .refl h
  · split
    · refine ⟨⟨[p], rfl⟩, fun q hq => ?_⟩
      rcases hq with hq | hq
      · exact .inl (List.mem_append.mpr (.inl hq))
      · by_cases e : q = p
        · subst e
          exact .inl (by simp)
        · exact .inr ((List.mem_erase_of_ne e).mpr hq)
    · exact .refl h

theorem Heap.insert_ext (h : Heap) (p : Path) : h.Ext (h.insert p) := by
  unfold Heap.insert
  split
  · exact .refl h
  · split
    · exact .refl h
    · exact ⟨⟨[], by simp⟩, fun q hq => hq.imp id (.tail _)⟩

theorem findNameFor_ext (c : Ctxt) (p : Path) : c.Ext (c.findNameFor p).2 := by
  unfold Ctxt.findNameFor
  dsimp only
  split
  · exact .refl c
  · rename_i heap hh
    have key : c.Ext (c.set (synthesizeName p) (heap.fix (trim p)).2) := .set fun h0 h0' => by
      rw [hh] at h0'
      cases h0'
      exact Heap.fix_ext _ _
    split <;> exact key

theorem registerPath_ext (c : Ctxt) : c.Ext c.registerPath.2 := by
  unfold Ctxt.registerPath
  refine .set fun h0 h0' => ?_
  rw [h0']
  exact Heap.insert_ext _ _

theorem step_ext {c c' : Ctxt} {o : Op} (h : c.step o = .ok c') : c.Ext c' := by
  cases o with
  | push a => cases h; exact .refl c
  | incr =>
    cases h
    unfold Ctxt.incrementIndex
    split <;> exact .refl c
  | escape =>
    simp only [Ctxt.step, Ctxt.escape] at h
    split at h
    · cases h
    · cases h; exact .refl c
  | register => cases h; exact registerPath_ext c
  | find p => cases h; exact findNameFor_ext c p

theorem run_ext : ∀ {os : List Op} {c c' : Ctxt}, c.run os = .ok c' → c.Ext c'
  | [], c, c', h => by cases h; exact .refl c
  | o :: os, c, c', h => by
    obtain ⟨c1, h1, h2⟩ := Panicky.bind_eq_ok.1 h
    exact (step_ext h1).trans (run_ext h2)

/-- the path has a name: its place is at position `ix` of the heap of its raw name -/
def Ctxt.Assigned (c : Ctxt) (p : Path) (ix : Nat) : Prop :=
  ∃ h, c.table (synthesizeName p) = some h ∧ h.fixed.findIdx? (· == trim p) = some ix

/-- the path can be given a name -/
def Ctxt.Known (c : Ctxt) (p : Path) : Prop :=
  ∃ h, c.table (synthesizeName p) = some h ∧ (trim p ∈ h.fixed ∨ trim p ∈ h.floating)

theorem Ctxt.Assigned.ext {c c' : Ctxt} {p : Path} {ix : Nat} (h : c.Assigned p ix) (e : c.Ext c') :
    c'.Assigned p ix := by
  obtain ⟨hp, h1, h2⟩ := h
  obtain ⟨hp', h3, h4⟩ := e _ _ h1
  obtain ⟨more, hm⟩ := h4.fixed
  refine ⟨hp', h3, ?_⟩
  rw [hm, List.findIdx?_append, h2]
  rfl

theorem Ctxt.Known.ext {c c' : Ctxt} {p : Path} (h : c.Known p) (e : c.Ext c') : c'.Known p := by
  obtain ⟨hp, h1, h2⟩ := h
  obtain ⟨hp', h3, h4⟩ := e _ _ h1
  exact ⟨hp', h3, h4.known _ h2⟩

theorem Ctxt.Known.of_trim {c : Ctxt} {p q : Path} (h : c.Known p) (e : trim p = trim q) : c.Known q := by
  unfold Ctxt.Known at *
  rw [← synthesize_trim p] at h
  rw [← synthesize_trim q, ← e]
  exact h

theorem Ctxt.Assigned.of_trim {c : Ctxt} {p q : Path} {ix : Nat} (h : c.Assigned p ix)
    (e : trim p = trim q) : c.Assigned q ix := by
  unfold Ctxt.Assigned at *
  rw [← synthesize_trim p] at h
  rw [← synthesize_trim q, ← e]
  exact h

theorem findNameFor_assigned {c : Ctxt} {p : Path} {ix : Nat} (h : c.Assigned p ix) :
    (c.findNameFor p).1 = some (dedup (synthesizeName p) ix) := by
  obtain ⟨hp, h1, h2⟩ := h
  unfold Ctxt.findNameFor
  simp only [h1, Heap.fix, h2]

theorem findNameFor_some {c : Ctxt} {p : Path} {n : String} (h : (c.findNameFor p).1 = some n) :
    ∃ ix, (c.findNameFor p).2.Assigned p ix ∧ n = dedup (synthesizeName p) ix := by
  unfold Ctxt.findNameFor at *
  dsimp only at *
  split at h
  · cases h
  · rename_i heap hh
    cases hf : heap.fixed.findIdx? (· == trim p) with
    | some i =>
      simp only [Heap.fix, hf, Option.some.injEq] at h ⊢
      exact ⟨i, ⟨heap, by simp [Ctxt.set], hf⟩, h.symm⟩
    | none =>
      by_cases hm : trim p ∈ heap.floating
      · simp only [Heap.fix, hf, hm, if_true, Option.some.injEq] at h ⊢
        refine ⟨_, ⟨_, by simp [Ctxt.set]; rfl, ?_⟩, h.symm⟩
        simp [List.findIdx?_append, hf]
      · simp [Heap.fix, hf, hm] at h

theorem findNameFor_known {c : Ctxt} {p : Path} (h : c.Known p) : ∃ n, (c.findNameFor p).1 = some n := by
  obtain ⟨hp, h1, h2⟩ := h
  unfold Ctxt.findNameFor
  simp only [h1, Heap.fix]
  cases hf : hp.fixed.findIdx? (· == trim p) with
  | some i => exact ⟨_, rfl⟩
  | none =>
    have hn : trim p ∉ hp.fixed := by
      intro hm
      have := List.findIdx?_eq_none_iff.mp hf _ hm
      simp at this
    have hm : trim p ∈ hp.floating := h2.resolve_left hn
    simp [hm]

theorem Ctxt.Assigned.known {c : Ctxt} {p : Path} {ix : Nat} (h : c.Assigned p ix) : c.Known p := by
  obtain ⟨hp, h1, h2⟩ := h
  refine ⟨hp, h1, .inl ?_⟩
  obtain ⟨h3, h4, _⟩ := List.findIdx?_eq_some_iff_getElem.mp h2
  have h4 : hp.fixed[ix] = trim p := by simpa using h4
  rw [← h4]
  exact List.getElem_mem h3

theorem registerPath_known (c : Ctxt) : c.registerPath.2.Known c.stack := by
  unfold Ctxt.registerPath Ctxt.Known
  refine ⟨_, by simp [Ctxt.set]; rfl, ?_⟩
  unfold Heap.insert
  split
  · left; assumption
  · split
    · right; assumption
    · right; simp

theorem assigned_same {c : Ctxt} {p q : Path} {ix : Nat} (hp : c.Assigned p ix) (hq : c.Assigned q ix)
    (e : synthesizeName p = synthesizeName q) : trim p = trim q := by
  obtain ⟨h, h1, h2⟩ := hp
  obtain ⟨h', h1', h2'⟩ := hq
  rw [e, h1'] at h1
  cases h1
  obtain ⟨h3, h4, _⟩ := List.findIdx?_eq_some_iff_getElem.mp h2
  obtain ⟨h3', h4', _⟩ := List.findIdx?_eq_some_iff_getElem.mp h2'
  have h4 : h.fixed[ix] = trim p := by simpa using h4
  have h4' : h.fixed[ix] = trim q := by simpa using h4'
  exact h4.symm.trans h4'

/-! ### deduplication -/

theorem toString_inj {a b : Nat} (h : toString a = toString b) : a = b := by
  have h1 : Nat.repr a = Nat.repr b := h
  have h2 : Nat.toDigits 10 a = Nat.toDigits 10 b := by
    rw [← Nat.toList_repr, ← Nat.toList_repr, h1]
  have h3 := congrArg (fun l => Nat.ofDigitChars 10 l 0) h2
  simpa [Nat.ofDigitChars_ten_toDigits] using h3

theorem toString_toList (a : Nat) : (toString a).toList = Nat.toDigits 10 a := Nat.toList_repr

theorem not_mem_toString {a : Nat} {c : Char} (hc : c.isDigit = false) : c ∉ (toString a).toList := by
  rw [toString_toList]
  intro h
  have := Nat.isDigit_of_mem_toDigits (by omega) (by omega) h
  rw [hc] at this
  cases this

theorem split_last {α : Type} {c : α} : ∀ {a b x y : List α}, a ++ c :: x = b ++ c :: y → c ∉ x → c ∉ y →
    a = b ∧ x = y
  | [], [], x, y, h, _, _ => by simp at h; exact ⟨rfl, h⟩
  | [], e :: b, x, y, h, hx, _ => by
    simp only [List.nil_append, List.cons_append, List.cons.injEq] at h
    exact absurd (by rw [h.2]; simp) hx
  | e :: a, [], x, y, h, _, hy => by
    simp only [List.nil_append, List.cons_append, List.cons.injEq] at h
    exact absurd (by rw [← h.2]; simp) hy
  | d :: a, e :: b, x, y, h, hx, hy => by
    simp only [List.cons_append, List.cons.injEq] at h
    obtain ⟨h1, h2⟩ := split_last h.2 hx hy
    exact ⟨by rw [h.1, h1], h2⟩

theorem dedup_collision {r s : String} {i j : Nat} (h : dedup r i = dedup s j) :
    (r = s ∧ i = j) ∨ (0 < j ∧ r = s ++ "__dupX" ++ toString j) ∨
      (0 < i ∧ s = r ++ "__dupX" ++ toString i) := by
  unfold dedup at h
  by_cases hi : i = 0
  · by_cases hj : j = 0
    · rw [if_pos hi, if_pos hj] at h
      exact .inl ⟨h, hi.trans hj.symm⟩
    · rw [if_pos hi, if_neg hj] at h
      exact .inr (.inl ⟨by omega, h⟩)
  · by_cases hj : j = 0
    · rw [if_neg hi, if_pos hj] at h
      exact .inr (.inr ⟨by omega, h.symm⟩)
    · rw [if_neg hi, if_neg hj] at h
      left
      have hl := congrArg String.toList h
      simp only [String.toList_append] at hl
      have he : ("__dupX" : String).toList = ['_', '_', 'd', 'u', 'p'] ++ ['X'] := by decide
      rw [he] at hl
      have hl' : (r.toList ++ ['_', '_', 'd', 'u', 'p']) ++ 'X' :: (toString i).toList =
          (s.toList ++ ['_', '_', 'd', 'u', 'p']) ++ 'X' :: (toString j).toList := by
        simpa using hl
      obtain ⟨h1, h2⟩ := split_last hl' (not_mem_toString (by decide)) (not_mem_toString (by decide))
      have h1 := List.append_cancel_right h1
      exact ⟨String.toList_inj.mp h1, toString_inj (String.toList_inj.mp h2)⟩

theorem infix_sep {α : Type} {w a b : List α} {c : α} (hc : c ∉ w) (h : w <:+: a ++ c :: b) :
    w <:+: a ∨ w <:+: b := by
  obtain ⟨s, t, h⟩ := h
  rcases List.append_eq_append_iff.mp h with ⟨a', h1, _⟩ | ⟨c', h1, h2⟩
  · left
    exact ⟨s, a', h1.symm⟩
  · cases c' with
    | nil =>
      left
      rw [List.append_nil] at h1
      exact ⟨s, [], by rw [List.append_nil, h1]⟩
    | cons d c'' =>
      simp only [List.cons_append, List.cons.injEq] at h2
      obtain ⟨rfl, rfl⟩ := h2
      rcases List.append_eq_append_iff.mp h1 with ⟨a', _, h4⟩ | ⟨c1, _, h4⟩
      · exact absurd (by rw [h4]; simp) hc
      · cases c1 with
        | nil =>
          rw [List.nil_append] at h4
          exact absurd (by rw [← h4]; simp) hc
        | cons d c1' =>
          simp only [List.cons_append, List.cons.injEq] at h4
          right
          exact ⟨c1', t, by rw [h4.2]⟩

abbrev dupX : List Char := ['d', 'u', 'p', 'X']

theorem display_clean {a : NameAtom} (h : a.Clean) : ¬ dupX <:+: a.display.toList := by
  have key : ∀ l : List Char, 'd' ∉ l → ¬ dupX <:+: l := fun l hl hi => hl (hi.subset (by decide))
  cases a with
  | explicit l => exact h
  | recordField l => exact h
  | variant l => exact h
  | bind l => exact h
  | derived => exact key _ (by decide)
  | deadEnd => exact key _ (by decide)
  | positional ix =>
    apply key
    simp only [NameAtom.display, String.toList_append, List.mem_append, not_or]
    exact ⟨by decide, not_mem_toString (by decide)⟩

theorem join_clean {tail pre : String} (ht : ¬ dupX <:+: tail.toList) (hp : ¬ dupX <:+: pre.toList) :
    ¬ dupX <:+: (underscoreJoin tail pre).toList := by
  unfold underscoreJoin
  split
  · exact ht
  · split
    · exact hp
    · intro h
      simp only [String.toList_append] at h
      have he : ("_" : String).toList = ['_'] := by decide
      rw [he, List.append_assoc, List.singleton_append] at h
      rcases infix_sep (by decide) h with h | h
      · exact hp h
      · exact ht h

theorem synthesizeLoop_clean : ∀ (p : List NameAtom) (b : String), (∀ a ∈ p, a.Clean) →
    ¬ dupX <:+: b.toList → ¬ dupX <:+: (synthesizeLoop p b).toList
  | [], b, _, hb => by unfold synthesizeLoop; exact hb
  | a :: p, b, hp, hb => by
    have ha := hp a (.head _)
    have hp' : ∀ a ∈ p, a.Clean := fun a h => hp a (.tail _ h)
    cases a with
    | explicit n => exact join_clean hb (display_clean ha)
    | _ => exact synthesizeLoop_clean p _ hp' (join_clean hb (display_clean ha))

theorem synthesize_clean {p : Path} (h : Path.Clean p) : ¬ dupX <:+: (synthesizeName p).toList := by
  apply synthesizeLoop_clean
  · intro a ha
    exact h a (List.mem_reverse.mp ha)
  · simp

theorem dup_infix (s : String) (k : Nat) : dupX <:+: (s ++ "__dupX" ++ toString k).toList := by
  refine ⟨s.toList ++ ['_', '_'], (toString k).toList, ?_⟩
  simp only [String.toList_append]
  have he : ("__dupX" : String).toList = ['_', '_'] ++ dupX := by decide
  rw [he]
  simp

/-- two places with the same name, in one state -/
theorem assigned_unique {c : Ctxt} {p q : Path} {i j : Nat} (hp : c.Assigned p i) (hq : c.Assigned q j)
    (h : dedup (synthesizeName p) i = dedup (synthesizeName q) j) :
    trim p = trim q ∨ (∃ k, 0 < k ∧ synthesizeName p = synthesizeName q ++ "__dupX" ++ toString k) ∨
      (∃ k, 0 < k ∧ synthesizeName q = synthesizeName p ++ "__dupX" ++ toString k) := by
  rcases dedup_collision h with ⟨h1, h2⟩ | h1 | h1
  · subst h2
    exact .inl (assigned_same hp hq h1)
  · exact .inr (.inl ⟨j, h1⟩)
  · exact .inr (.inr ⟨i, h1⟩)

theorem assigned_unique_clean {c : Ctxt} {p q : Path} {i j : Nat} (hp : c.Assigned p i) (hq : c.Assigned q j)
    (h : dedup (synthesizeName p) i = dedup (synthesizeName q) j) (cp : Path.Clean p) (cq : Path.Clean q) :
    trim p = trim q := by
  rcases assigned_unique hp hq h with h | ⟨k, _, h⟩ | ⟨k, _, h⟩
  · exact h
  · exact absurd (h ▸ dup_infix _ k) (synthesize_clean cp)
  · exact absurd (h ▸ dup_infix _ k) (synthesize_clean cq)

end Names
end Doodle
