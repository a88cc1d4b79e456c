import Verif.Spec.Typing

/-! Facts about sorted maps, the order on types and unification. -/

namespace Doodle

namespace TMap
variable {α : Type}

theorem get_insert (k k' : String) (x : α) (m : List (String × α)) :
    get k' (insert k x m) = if k' = k then some x else get k' m := by
  induction m with
  | nil => simp only [insert, get]
  | cons p m ih =>
    obtain ⟨j, y⟩ := p
    simp only [insert]
    by_cases h1 : k < j
    · rw [if_pos h1]
      simp only [get]
    · rw [if_neg h1]
      by_cases h2 : k = j
      · rw [if_pos h2]
        subst h2
        simp only [get]
        by_cases h3 : k' = k
        · simp only [if_pos h3]
        · simp only [if_neg h3]
      · rw [if_neg h2]
        simp only [get, ih]
        by_cases h3 : k' = j
        · rw [if_pos h3]
          have : k' ≠ k := fun e => h2 (e ▸ h3)
          rw [if_neg this, if_pos h3]
        · rw [if_neg h3]
          by_cases h4 : k' = k
          · rw [if_pos h4, if_pos h4]
          · rw [if_neg h4, if_neg h4, if_neg h3]

theorem get_mem {k : String} {x : α} {m : List (String × α)} (h : get k m = some x) : (k, x) ∈ m := by
  induction m with
  | nil => simp only [get] at h; cases h
  | cons p m ih =>
    obtain ⟨j, y⟩ := p
    simp only [get] at h
    by_cases e : k = j
    · rw [if_pos e] at h; cases h; subst e; exact .head _
    · rw [if_neg e] at h; exact .tail _ (ih h)

theorem Above.not_get {k : String} {m : List (String × α)} (h : Above k m) : get k m = none := by
  cases e : get k m with
  | none => rfl
  | some x => exact absurd (h _ (get_mem e)) (String.lt_irrefl k)

theorem Above.trans {k k' : String} {m : List (String × α)} (hk : k < k') (h : Above k' m) :
    Above k m := fun p hp => String.lt_trans hk (h p hp)

theorem Sorted.get_of_mem {k : String} {x : α} {m : List (String × α)} (hs : Sorted m)
    (h : (k, x) ∈ m) : get k m = some x := by
  induction hs with
  | nil => cases h
  | @cons j y m ha hs ih =>
    simp only [get]
    cases h with
    | head => rw [if_pos rfl]
    | tail _ h =>
      have hlt := ha _ h
      have hne : k ≠ j := fun e => String.lt_irrefl j (by rw [e] at hlt; exact hlt)
      rw [if_neg hne]
      exact ih h

theorem above_insert {j k : String} {x : α} {m : List (String × α)} (hk : j < k) (h : Above j m) :
    Above j (insert k x m) := by
  induction m with
  | nil =>
    intro p hp
    simp only [insert, List.mem_singleton] at hp
    subst hp; exact hk
  | cons q m ih =>
    obtain ⟨i, y⟩ := q
    have hi : j < i := h _ (.head _)
    have hm : Above j m := fun p hp => h p (.tail _ hp)
    simp only [insert]
    by_cases h1 : k < i
    · rw [if_pos h1]
      intro p hp
      cases hp with
      | head => exact hk
      | tail _ hp => exact h p hp
    · rw [if_neg h1]
      by_cases h2 : k = i
      · rw [if_pos h2]
        intro p hp
        cases hp with
        | head => exact hk
        | tail _ hp => exact hm p hp
      · rw [if_neg h2]
        intro p hp
        cases hp with
        | head => exact hi
        | tail _ hp => exact ih hm p hp

theorem Sorted.insert {k : String} {x : α} {m : List (String × α)} (hs : Sorted m) :
    Sorted (insert k x m) := by
  induction hs with
  | nil => exact .cons (fun p hp => by cases hp) .nil
  | @cons j y m ha hs ih =>
    simp only [TMap.insert]
    by_cases h1 : k < j
    · rw [if_pos h1]
      refine .cons ?_ (.cons ha hs)
      intro p hp
      cases hp with
      | head => exact h1
      | tail _ hp => exact String.lt_trans h1 (ha p hp)
    · rw [if_neg h1]
      by_cases h2 : k = j
      · rw [if_pos h2]
        subst h2
        exact .cons ha hs
      · rw [if_neg h2]
        refine .cons (above_insert ?_ ha) ih
        rcases Std.lt_trichotomy k j with h | h | h
        · exact absurd h h1
        · exact absurd h h2
        · exact h

/-- a map is determined by what it maps keys to -/
theorem Sorted.ext {m m' : List (String × α)} (hs : Sorted m) (hs' : Sorted m')
    (h : ∀ k, get k m = get k m') : m = m' := by
  induction hs generalizing m' with
  | nil =>
    cases hs' with
    | nil => rfl
    | @cons k x _ ha _ =>
      have := h k
      simp only [get, if_true] at this
      cases this
  | @cons k x m ha hs ih =>
    cases hs' with
    | nil =>
      have := h k
      simp only [get, if_true] at this
      cases this
    | @cons k' x' m' ha' hs' =>
      have hk : k = k' := by
        rcases Std.lt_trichotomy k k' with hlt | he | hlt
        · have h1 := h k
          simp only [get, if_true] at h1
          have hne : k ≠ k' := fun e => String.lt_irrefl k' (by rw [e] at hlt; exact hlt)
          rw [if_neg hne, (Above.trans hlt ha').not_get] at h1
          cases h1
        · exact he
        · have h1 := h k'
          simp only [get, if_true] at h1
          have hne : k' ≠ k := fun e => String.lt_irrefl k (by rw [e] at hlt; exact hlt)
          rw [if_neg hne, (Above.trans hlt ha).not_get] at h1
          cases h1
      subst hk
      have hx : x = x' := by
        have h1 := h k
        simp only [get, if_true] at h1
        cases h1; rfl
      subst hx
      have hm : m = m' := by
        refine ih hs' ?_
        intro j
        by_cases e : j = k
        · subst e; rw [ha.not_get, ha'.not_get]
        · have h1 := h j
          simp only [get, if_neg e] at h1
          exact h1
      rw [hm]

end TMap

namespace ValueType

theorem WFMap.get {k : String} {t : ValueType} {m : List (String × ValueType)} (h : WFMap m)
    (hg : TMap.get k m = some t) : WF t := by
  induction m with
  | nil => simp only [TMap.get] at hg; cases hg
  | cons p m ih =>
    obtain ⟨j, y⟩ := p
    cases h with
    | cons h1 h2 =>
      simp only [TMap.get] at hg
      by_cases e : k = j
      · rw [if_pos e] at hg; cases hg; exact h1
      · rw [if_neg e] at hg; exact ih h2 hg

theorem WFMap.insert {k : String} {t : ValueType} {m : List (String × ValueType)} (h : WFMap m)
    (ht : WF t) : WFMap (TMap.insert k t m) := by
  induction m with
  | nil => exact .cons ht .nil
  | cons p m ih =>
    obtain ⟨j, y⟩ := p
    cases h with
    | cons h1 h2 =>
      simp only [TMap.insert]
      by_cases e : k < j
      · rw [if_pos e]; exact .cons ht (.cons h1 h2)
      · rw [if_neg e]
        by_cases e' : k = j
        · rw [if_pos e']; exact .cons ht h2
        · rw [if_neg e']; exact .cons h1 (ih h2)

theorem LeMap.get {k : String} {t : ValueType} {bs cs : List (String × ValueType)} (h : LeMap bs cs)
    (hg : TMap.get k bs = some t) : ∃ u, TMap.get k cs = some u ∧ Le t u := by
  induction bs with
  | nil => simp only [TMap.get] at hg; cases hg
  | cons p m ih =>
    obtain ⟨j, y⟩ := p
    cases h with
    | cons h1 h2 h3 =>
      simp only [TMap.get] at hg
      by_cases e : k = j
      · rw [if_pos e] at hg; cases hg; subst e; exact ⟨_, h1, h2⟩
      · rw [if_neg e] at hg; exact ih h3 hg

theorem LeMap.of_mem {bs cs : List (String × ValueType)}
    (h : ∀ k t, (k, t) ∈ bs → ∃ u, TMap.get k cs = some u ∧ Le t u) : LeMap bs cs := by
  induction bs with
  | nil => exact .nil
  | cons p m ih =>
    obtain ⟨j, y⟩ := p
    obtain ⟨u, h1, h2⟩ := h j y (.head _)
    exact .cons h1 h2 (ih fun k t hm => h k t (.tail _ hm))

theorem LeMap.of_get {bs cs : List (String × ValueType)} (hs : TMap.Sorted bs)
    (h : ∀ k t, TMap.get k bs = some t → ∃ u, TMap.get k cs = some u ∧ Le t u) : LeMap bs cs :=
  .of_mem fun k t hm => h k t (hs.get_of_mem hm)

mutual
theorem Le.refl : ∀ {t : ValueType}, WF t → Le t t
  | _, .any => .any
  | _, .empty => .empty (by intro h; cases h)
  | _, .viewObj => .viewObj
  | _, .phantom h => .phantom (Le.refl h)
  | _, .base => .base
  | _, .numericHole => .numericHole rfl
  | _, .signed => .signed
  | _, .tuple h => .tuple (LeList.refl h)
  | _, .record h => .record (LeFields.refl h)
  | _, .union hs h => .union (LeMap.refl h _ fun _ _ hm => hs.get_of_mem hm)
  | _, .seq h => .seq (Le.refl h)
  | _, .option h => .option (Le.refl h)

theorem LeList.refl : ∀ {ts : List ValueType}, WFList ts → LeList ts ts
  | _, .nil => .nil
  | _, .cons h hs => .cons (Le.refl h) (LeList.refl hs)

theorem LeFields.refl : ∀ {fs : List (String × ValueType)}, WFMap fs → LeFields fs fs
  | _, .nil => .nil
  | _, .cons h hs => .cons (Le.refl h) (LeFields.refl hs)

theorem LeMap.refl : ∀ {bs : List (String × ValueType)}, WFMap bs → ∀ cs : List (String × ValueType),
    (∀ k t, (k, t) ∈ bs → TMap.get k cs = some t) → LeMap bs cs
  | _, .nil, _, _ => .nil
  | _, .cons h hs, cs, hm =>
    .cons (hm _ _ (.head _)) (Le.refl h) (LeMap.refl hs cs fun k t hk => hm k t (.tail _ hk))
end

theorem Le.numeric {t u : ValueType} (h : Le t u) (hn : t.isNumeric = true) : u.isNumeric = true := by
  cases h <;> first | exact hn | assumption | (simp only [isNumeric] at hn; cases hn)

theorem Le.ne_any {t u : ValueType} (h : Le t u) (hn : t ≠ .any) : u ≠ .any := by
  cases h <;> intro e
  · exact hn rfl
  · rename_i h; exact h e
  · subst e; rename_i h; simp only [isNumeric] at h; cases h
  all_goals cases e

mutual
theorem Le.trans : ∀ {t u v : ValueType}, Le t u → Le u v → Le t v
  | _, _, _, .any, _ => .any
  | _, _, _, .empty h, h' => .empty (h'.ne_any h)
  | _, _, _, .numericHole h, h' => .numericHole (h'.numeric h)
  | _, _, _, .viewObj, h' => h'
  | _, _, _, .base, h' => h'
  | _, _, _, .signed, h' => h'
  | _, _, _, .phantom h, .phantom h' => .phantom (h.trans h')
  | _, _, _, .seq h, .seq h' => .seq (h.trans h')
  | _, _, _, .option h, .option h' => .option (h.trans h')
  | _, _, _, .tuple h, .tuple h' => .tuple (h.trans h')
  | _, _, _, .record h, .record h' => .record (h.trans h')
  | _, _, _, .union h, .union h' => .union (h.trans h')

theorem LeList.trans : ∀ {t u v : List ValueType}, LeList t u → LeList u v → LeList t v
  | _, _, _, .nil, .nil => .nil
  | _, _, _, .cons h hs, .cons h' hs' => .cons (h.trans h') (hs.trans hs')

theorem LeFields.trans : ∀ {t u v : List (String × ValueType)}, LeFields t u → LeFields u v → LeFields t v
  | _, _, _, .nil, .nil => .nil
  | _, _, _, .cons h hs, .cons h' hs' => .cons (h.trans h') (hs.trans hs')

theorem LeMap.trans : ∀ {t u v : List (String × ValueType)}, LeMap t u → LeMap u v → LeMap t v
  | _, _, _, .nil, _ => .nil
  | _, _, _, .cons hg h hs, h' =>
    let ⟨_, h1, h2⟩ := h'.get hg
    .cons h1 (h.trans h2) (hs.trans h')
end

theorem LeMap.antisymm_aux {bs cs : List (String × ValueType)} (hb : TMap.Sorted bs)
    (hc : TMap.Sorted cs) (h' : LeMap cs bs)
    (h : ∀ k t, (k, t) ∈ bs → TMap.get k cs = some t) : bs = cs := by
  refine hb.ext hc ?_
  intro k
  cases e : TMap.get k bs with
  | some t => exact (h k t (TMap.get_mem e)).symm
  | none =>
    cases e' : TMap.get k cs with
    | none => rfl
    | some u =>
      obtain ⟨w, h1, _⟩ := h'.get e'
      rw [e] at h1; cases h1

mutual
theorem Le.antisymm : ∀ {t u : ValueType}, Le t u → Le u t → WF t → WF u → t = u
  | _, _, .any, h', _, _ => by
    cases h' with
    | any => rfl
    | empty h => exact absurd rfl h
    | numericHole h => simp only [isNumeric] at h; cases h
  | _, _, .empty h, h', _, _ => by
    cases h' with
    | any => exact absurd rfl h
    | empty => rfl
    | numericHole h => simp only [isNumeric] at h; cases h
  | _, _, .numericHole h, h', _, _ => by
    cases h' with
    | any => simp only [isNumeric] at h; cases h
    | empty => simp only [isNumeric] at h; cases h
    | numericHole => rfl
  | _, _, .viewObj, _, _, _ => rfl
  | _, _, .base, _, _, _ => rfl
  | _, _, .signed, _, _, _ => rfl
  | _, _, .phantom h, .phantom h', .phantom w, .phantom w' => by rw [h.antisymm h' w w']
  | _, _, .seq h, .seq h', .seq w, .seq w' => by rw [h.antisymm h' w w']
  | _, _, .option h, .option h', .option w, .option w' => by rw [h.antisymm h' w w']
  | _, _, .tuple h, .tuple h', .tuple w, .tuple w' => by rw [h.antisymm h' w w']
  | _, _, .record h, .record h', .record w, .record w' => by rw [h.antisymm h' w w']
  | _, _, .union h, .union h', .union s w, .union s' w' => by
    rw [LeMap.antisymm_aux s s' h' fun k t hm => h.antisymm h' s w w' k t hm (s.get_of_mem hm)]

theorem LeList.antisymm : ∀ {t u : List ValueType}, LeList t u → LeList u t → WFList t → WFList u → t = u
  | _, _, .nil, .nil, _, _ => rfl
  | _, _, .cons h hs, .cons h' hs', .cons w ws, .cons w' ws' => by
    rw [h.antisymm h' w w', hs.antisymm hs' ws ws']

theorem LeFields.antisymm : ∀ {t u : List (String × ValueType)}, LeFields t u → LeFields u t →
    WFMap t → WFMap u → t = u
  | _, _, .nil, .nil, _, _ => rfl
  | _, _, .cons h hs, .cons h' hs', .cons w ws, .cons w' ws' => by
    rw [h.antisymm h' w w', hs.antisymm hs' ws ws']

theorem LeMap.antisymm : ∀ {bs cs : List (String × ValueType)}, LeMap bs cs →
    ∀ {bs' : List (String × ValueType)}, LeMap cs bs' → TMap.Sorted bs' → WFMap bs → WFMap cs →
    ∀ k t, (k, t) ∈ bs → TMap.get k bs' = some t → TMap.get k cs = some t
  | _, _, .nil, _, _, _, _, _, _, _, hm, _ => by cases hm
  | _, _, .cons (k := j) hg h hs, _, h', s, .cons w ws, w', k, t, hm, hb => by
    cases hm with
    | head =>
      obtain ⟨x, h1, h2⟩ := h'.get hg
      rw [hb] at h1
      cases h1
      rw [hg, h.antisymm h2 w (w'.get hg)]
    | tail _ hm => exact hs.antisymm h' s ws w' k t hm hb
end

theorem isNumeric_wf {t : ValueType} (h : t.isNumeric = true) : WF t := by
  cases t <;> first | (simp only [isNumeric] at h; cases h; done) | exact .base | exact .numericHole | exact .signed

mutual
theorem unify_upper : ∀ (t1 t2 t : ValueType), WF t1 → WF t2 → unify t1 t2 = some t →
    WF t ∧ Le t1 t ∧ Le t2 t
  | .any, t2, t, w1, w2, h => by
    have : t = t2 := by cases t2 <;> simp only [unify] at h <;> cases h <;> rfl
    subst this
    exact ⟨w2, .any, .refl w2⟩
  | .empty, t2, t, w1, w2, h => by
    cases t2 <;> simp only [unify, Option.some.injEq] at h <;> subst h
    case any => exact ⟨w1, .refl w1, .any⟩
    all_goals exact ⟨w2, .empty (by intro e; cases e), .refl w2⟩
  | .numericHole, t2, t, w1, w2, h => by
    cases t2 <;> simp only [unify, Option.some.injEq] at h
    case any => subst h; exact ⟨w1, .refl w1, .any⟩
    case empty => subst h; exact ⟨w1, .refl w1, .empty (by intro e; cases e)⟩
    all_goals
      split at h
      · rename_i hn
        cases h
        exact ⟨w2, .numericHole hn, .refl w2⟩
      · cases h
  | .viewObj, t2, t, w1, w2, h => by
    cases t2 <;> simp only [unify, Option.some.injEq] at h <;> try cases h
    case any => exact ⟨w1, .refl w1, .any⟩
    case empty => exact ⟨w1, .refl w1, .empty (by intro e; cases e)⟩
    case viewObj.refl => exact ⟨w1, .viewObj, .viewObj⟩
  | .base b, t2, t, w1, w2, h => by
    cases t2 <;> simp only [unify, Option.some.injEq] at h
    case any => subst h; exact ⟨w1, .refl w1, .any⟩
    case empty => subst h; exact ⟨w1, .refl w1, .empty (by intro e; cases e)⟩
    case numericHole =>
      split at h
      · rename_i hn; cases h; exact ⟨w1, .refl w1, .numericHole hn⟩
      · cases h
    case base b2 =>
      split at h
      · rename_i hn; cases h; subst hn; exact ⟨w1, .base, .base⟩
      · cases h
    all_goals cases h
  | .signed b, t2, t, w1, w2, h => by
    cases t2 <;> simp only [unify, Option.some.injEq] at h
    case any => subst h; exact ⟨w1, .refl w1, .any⟩
    case empty => subst h; exact ⟨w1, .refl w1, .empty (by intro e; cases e)⟩
    case numericHole =>
      split at h
      · rename_i hn; cases h; exact ⟨w1, .refl w1, .numericHole hn⟩
      · cases h
    case signed b2 =>
      split at h
      · rename_i hn; cases h; subst hn; exact ⟨w1, .signed, .signed⟩
      · cases h
    all_goals cases h
  | .phantom a, t2, t, w1, w2, h => by
    cases t2 <;> simp only [unify, Option.some.injEq] at h
    case any => subst h; exact ⟨w1, .refl w1, .any⟩
    case empty => subst h; exact ⟨w1, .refl w1, .empty (by intro e; cases e)⟩
    case numericHole => simp only [isNumeric] at h; cases h
    case phantom b =>
      obtain ⟨c, hc, he⟩ := Option.map_eq_some_iff.mp h
      cases he
      cases w1 with | phantom w1 =>
      cases w2 with | phantom w2 =>
      obtain ⟨x, y, z⟩ := unify_upper a b c w1 w2 hc
      exact ⟨.phantom x, .phantom y, .phantom z⟩
    all_goals cases h
  | .seq a, t2, t, w1, w2, h => by
    cases t2 <;> simp only [unify, Option.some.injEq] at h
    case any => subst h; exact ⟨w1, .refl w1, .any⟩
    case empty => subst h; exact ⟨w1, .refl w1, .empty (by intro e; cases e)⟩
    case numericHole => simp only [isNumeric] at h; cases h
    case seq b =>
      obtain ⟨c, hc, he⟩ := Option.map_eq_some_iff.mp h
      cases he
      cases w1 with | seq w1 =>
      cases w2 with | seq w2 =>
      obtain ⟨x, y, z⟩ := unify_upper a b c w1 w2 hc
      exact ⟨.seq x, .seq y, .seq z⟩
    all_goals cases h
  | .option a, t2, t, w1, w2, h => by
    cases t2 <;> simp only [unify, Option.some.injEq] at h
    case any => subst h; exact ⟨w1, .refl w1, .any⟩
    case empty => subst h; exact ⟨w1, .refl w1, .empty (by intro e; cases e)⟩
    case numericHole => simp only [isNumeric] at h; cases h
    case option b =>
      obtain ⟨c, hc, he⟩ := Option.map_eq_some_iff.mp h
      cases he
      cases w1 with | option w1 =>
      cases w2 with | option w2 =>
      obtain ⟨x, y, z⟩ := unify_upper a b c w1 w2 hc
      exact ⟨.option x, .option y, .option z⟩
    all_goals cases h
  | .tuple a, t2, t, w1, w2, h => by
    cases t2 <;> simp only [unify, Option.some.injEq] at h
    case any => subst h; exact ⟨w1, .refl w1, .any⟩
    case empty => subst h; exact ⟨w1, .refl w1, .empty (by intro e; cases e)⟩
    case numericHole => simp only [isNumeric] at h; cases h
    case tuple b =>
      split at h
      · rename_i hl
        obtain ⟨c, hc, he⟩ := Option.map_eq_some_iff.mp h
        cases he
        cases w1 with | tuple w1 =>
        cases w2 with | tuple w2 =>
        obtain ⟨x, y, z⟩ := unifyList_upper a b c w1 w2 hl hc
        exact ⟨.tuple x, .tuple y, .tuple z⟩
      · cases h
    all_goals cases h
  | .record a, t2, t, w1, w2, h => by
    cases t2 <;> simp only [unify, Option.some.injEq] at h
    case any => subst h; exact ⟨w1, .refl w1, .any⟩
    case empty => subst h; exact ⟨w1, .refl w1, .empty (by intro e; cases e)⟩
    case numericHole => simp only [isNumeric] at h; cases h
    case record b =>
      split at h
      · rename_i hl
        obtain ⟨c, hc, he⟩ := Option.map_eq_some_iff.mp h
        cases he
        cases w1 with | record w1 =>
        cases w2 with | record w2 =>
        obtain ⟨x, y, z⟩ := unifyFields_upper a b c w1 w2 hl hc
        exact ⟨.record x, .record y, .record z⟩
      · cases h
    all_goals cases h
  | .union a, t2, t, w1, w2, h => by
    cases t2 <;> simp only [unify, Option.some.injEq] at h
    case any => subst h; exact ⟨w1, .refl w1, .any⟩
    case empty => subst h; exact ⟨w1, .refl w1, .empty (by intro e; cases e)⟩
    case numericHole => simp only [isNumeric] at h; cases h
    case union b =>
      obtain ⟨c, hc, he⟩ := Option.map_eq_some_iff.mp h
      cases he
      cases w1 with | union s1 w1 =>
      cases w2 with | union s2 w2 =>
      obtain ⟨x, y, z, w⟩ := unifyInto_upper a b c w1 s2 w2 hc
      exact ⟨.union x y, .union z, .union (.of_get s2 w)⟩
    all_goals cases h

theorem unifyList_upper : ∀ (ts1 ts2 ts : List ValueType), WFList ts1 → WFList ts2 →
    ts1.length = ts2.length → unifyList ts1 ts2 = some ts → WFList ts ∧ LeList ts1 ts ∧ LeList ts2 ts
  | [], ts2, ts, _, _, hl, h => by
    cases ts2 with
    | nil => simp only [unifyList] at h; cases h; exact ⟨.nil, .nil, .nil⟩
    | cons => cases hl
  | t1 :: ts1, [], ts, _, _, hl, h => by cases hl
  | t1 :: ts1, t2 :: ts2, ts, .cons w1 ws1, .cons w2 ws2, hl, h => by
    simp only [unifyList] at h
    split at h
    · rename_i t ts' e1 e2
      cases h
      obtain ⟨x, y, z⟩ := unify_upper t1 t2 t w1 w2 e1
      obtain ⟨x', y', z'⟩ := unifyList_upper ts1 ts2 ts' ws1 ws2 (Nat.succ.inj hl) e2
      exact ⟨.cons x x', .cons y y', .cons z z'⟩
    · cases h

theorem unifyFields_upper : ∀ (fs1 fs2 fs : List (String × ValueType)), WFMap fs1 → WFMap fs2 →
    fs1.length = fs2.length → unifyFields fs1 fs2 = some fs → WFMap fs ∧ LeFields fs1 fs ∧ LeFields fs2 fs
  | [], fs2, fs, _, _, hl, h => by
    cases fs2 with
    | nil => simp only [unifyFields] at h; cases h; exact ⟨.nil, .nil, .nil⟩
    | cons => cases hl
  | (l1, t1) :: fs1, [], fs, _, _, hl, h => by cases hl
  | (l1, t1) :: fs1, (l2, t2) :: fs2, fs, .cons w1 ws1, .cons w2 ws2, hl, h => by
    simp only [unifyFields] at h
    split at h
    · rename_i e
      split at h
      · rename_i t ts' e1 e2
        cases h
        subst e
        obtain ⟨x, y, z⟩ := unify_upper t1 t2 t w1 w2 e1
        obtain ⟨x', y', z'⟩ := unifyFields_upper fs1 fs2 ts' ws1 ws2 (Nat.succ.inj hl) e2
        exact ⟨.cons x x', .cons y y', .cons z z'⟩
      · cases h
    · cases h

theorem unifyInto_upper : ∀ (bs1 bs r : List (String × ValueType)), WFMap bs1 → TMap.Sorted bs →
    WFMap bs → unifyInto bs1 bs = some r → TMap.Sorted r ∧ WFMap r ∧ LeMap bs1 r ∧
      ∀ k u, TMap.get k bs = some u → ∃ w, TMap.get k r = some w ∧ Le u w
  | [], bs, r, _, hs, w, h => by
    simp only [unifyInto] at h
    cases h
    exact ⟨hs, w, .nil, fun k u hg => ⟨u, hg, .refl (w.get hg)⟩⟩
  | (k, t1) :: bs1, bs, r, .cons w1 ws1, hs, w, h => by
    simp only [unifyInto] at h
    cases e : TMap.get k bs with
    | some t2 =>
      simp only [e] at h
      cases e' : unify t1 t2 with
      | none => simp only [e'] at h; cases h
      | some t =>
        simp only [e'] at h
        obtain ⟨x, y, z⟩ := unify_upper t1 t2 t w1 (w.get e) e'
        obtain ⟨a, b, c, d⟩ := unifyInto_upper bs1 _ r ws1 hs.insert (w.insert x) h
        have hk : TMap.get k (TMap.insert k t bs) = some t := by rw [TMap.get_insert, if_pos rfl]
        obtain ⟨v, hv, hv'⟩ := d k t hk
        refine ⟨a, b, .cons hv (y.trans hv') c, ?_⟩
        intro j u hj
        by_cases ej : j = k
        · subst ej
          rw [e] at hj
          cases hj
          exact ⟨v, hv, z.trans hv'⟩
        · exact d j u (by rw [TMap.get_insert, if_neg ej]; exact hj)
    | none =>
      simp only [e] at h
      obtain ⟨a, b, c, d⟩ := unifyInto_upper bs1 _ r ws1 hs.insert (w.insert w1) h
      have hk : TMap.get k (TMap.insert k t1 bs) = some t1 := by rw [TMap.get_insert, if_pos rfl]
      obtain ⟨v, hv, hv'⟩ := d k t1 hk
      refine ⟨a, b, .cons hv hv' c, ?_⟩
      intro j u hj
      refine d j u ?_
      rw [TMap.get_insert, if_neg, hj]
      intro ej
      rw [ej, e] at hj
      cases hj
end

mutual
theorem unify_least : ∀ (t1 t2 u : ValueType), WF t1 → WF t2 → Le t1 u → Le t2 u →
    ∃ t, unify t1 t2 = some t ∧ Le t u
  | .any, t2, u, _, _, _, h2 => ⟨t2, by cases t2 <;> simp only [unify], h2⟩
  | .empty, t2, u, _, _, h1, h2 => by
    cases t2
    case any => exact ⟨.empty, by simp only [unify], h1⟩
    case empty => exact ⟨.empty, by simp only [unify], h1⟩
    all_goals exact ⟨_, by simp only [unify], h2⟩
  | .numericHole, t2, u, _, _, h1, h2 => by
    have hu : u.isNumeric = true := by cases h1; assumption
    cases h2 with
    | any => exact ⟨.numericHole, by simp only [unify], h1⟩
    | empty => exact ⟨.numericHole, by simp only [unify], h1⟩
    | numericHole h => exact ⟨.numericHole, by simp only [unify, isNumeric, if_true], h1⟩
    | @base b => exact ⟨.base b, by simp only [unify, hu, if_true], .base⟩
    | @signed b => exact ⟨.signed b, by simp only [unify, hu, if_true], .signed⟩
    | _ => simp only [isNumeric] at hu; cases hu
  | .viewObj, t2, _, _, _, .viewObj, h2 => by
    cases h2 with
    | any => exact ⟨.viewObj, by simp only [unify], .viewObj⟩
    | empty => exact ⟨.viewObj, by simp only [unify], .viewObj⟩
    | viewObj => exact ⟨.viewObj, by simp only [unify], .viewObj⟩
    | numericHole h => simp only [isNumeric] at h; cases h
  | .base b, t2, _, _, _, .base, h2 => by
    cases h2 with
    | any => exact ⟨.base b, by simp only [unify], .base⟩
    | empty => exact ⟨.base b, by simp only [unify], .base⟩
    | base => exact ⟨.base b, by simp only [unify, if_true], .base⟩
    | numericHole h => exact ⟨.base b, by simp only [unify, h, if_true], .base⟩
  | .signed b, t2, _, _, _, .signed, h2 => by
    cases h2 with
    | any => exact ⟨.signed b, by simp only [unify], .signed⟩
    | empty => exact ⟨.signed b, by simp only [unify], .signed⟩
    | signed => exact ⟨.signed b, by simp only [unify, if_true], .signed⟩
    | numericHole h => exact ⟨.signed b, by simp only [unify, h, if_true], .signed⟩
  | .phantom a, t2, _, .phantom w1, w2, .phantom (u := u) h1, h2 => by
    cases h2 with
    | any => exact ⟨.phantom a, by simp only [unify], .phantom h1⟩
    | empty => exact ⟨.phantom a, by simp only [unify], .phantom h1⟩
    | numericHole h => simp only [isNumeric] at h; cases h
    | @phantom b _ h2 =>
      cases w2 with | phantom w2 =>
      obtain ⟨t, x, y⟩ := unify_least a b u w1 w2 h1 h2
      exact ⟨.phantom t, by simp only [unify, x, Option.map_some], .phantom y⟩
  | .seq a, t2, _, .seq w1, w2, .seq (u := u) h1, h2 => by
    cases h2 with
    | any => exact ⟨.seq a, by simp only [unify], .seq h1⟩
    | empty => exact ⟨.seq a, by simp only [unify], .seq h1⟩
    | numericHole h => simp only [isNumeric] at h; cases h
    | @seq b _ h2 =>
      cases w2 with | seq w2 =>
      obtain ⟨t, x, y⟩ := unify_least a b u w1 w2 h1 h2
      exact ⟨.seq t, by simp only [unify, x, Option.map_some], .seq y⟩
  | .option a, t2, _, .option w1, w2, .option (u := u) h1, h2 => by
    cases h2 with
    | any => exact ⟨.option a, by simp only [unify], .option h1⟩
    | empty => exact ⟨.option a, by simp only [unify], .option h1⟩
    | numericHole h => simp only [isNumeric] at h; cases h
    | @option b _ h2 =>
      cases w2 with | option w2 =>
      obtain ⟨t, x, y⟩ := unify_least a b u w1 w2 h1 h2
      exact ⟨.option t, by simp only [unify, x, Option.map_some], .option y⟩
  | .tuple a, t2, _, .tuple w1, w2, .tuple (us := u) h1, h2 => by
    cases h2 with
    | any => exact ⟨.tuple a, by simp only [unify], .tuple h1⟩
    | empty => exact ⟨.tuple a, by simp only [unify], .tuple h1⟩
    | numericHole h => simp only [isNumeric] at h; cases h
    | @tuple b _ h2 =>
      cases w2 with | tuple w2 =>
      obtain ⟨t, x, hl, y⟩ := unifyList_least a b u w1 w2 h1 h2
      exact ⟨.tuple t, by simp only [unify, x, hl, if_true, Option.map_some], .tuple y⟩
  | .record a, t2, _, .record w1, w2, .record (gs := u) h1, h2 => by
    cases h2 with
    | any => exact ⟨.record a, by simp only [unify], .record h1⟩
    | empty => exact ⟨.record a, by simp only [unify], .record h1⟩
    | numericHole h => simp only [isNumeric] at h; cases h
    | @record b _ h2 =>
      cases w2 with | record w2 =>
      obtain ⟨t, x, hl, y⟩ := unifyFields_least a b u w1 w2 h1 h2
      exact ⟨.record t, by simp only [unify, x, hl, if_true, Option.map_some], .record y⟩
  | .union a, t2, _, .union s1 w1, w2, .union (cs := u) h1, h2 => by
    cases h2 with
    | any => exact ⟨.union a, by simp only [unify], .union h1⟩
    | empty => exact ⟨.union a, by simp only [unify], .union h1⟩
    | numericHole h => simp only [isNumeric] at h; cases h
    | @union b _ h2 =>
      cases w2 with | union s2 w2 =>
      obtain ⟨t, x, y⟩ := unifyInto_least a b u w1 s2 w2 h1 (fun k v hg => h2.get hg)
      obtain ⟨s, _⟩ := unifyInto_upper a b t w1 s2 w2 x
      exact ⟨.union t, by simp only [unify, x, Option.map_some], .union (.of_get s y)⟩

theorem unifyList_least : ∀ (ts1 ts2 us : List ValueType), WFList ts1 → WFList ts2 →
    LeList ts1 us → LeList ts2 us →
    ∃ ts, unifyList ts1 ts2 = some ts ∧ ts1.length = ts2.length ∧ LeList ts us
  | [], _, _, _, _, .nil, .nil => ⟨[], by simp only [unifyList], rfl, .nil⟩
  | _ :: _, [], [], _, _, h1, _ => nomatch h1
  | _ :: _, [], _ :: _, _, _, _, h2 => nomatch h2
  | t1 :: ts1, t2 :: ts2, u :: us, .cons w1 ws1, .cons w2 ws2, .cons h1 hs1, .cons h2 hs2 => by
    obtain ⟨t, x, y⟩ := unify_least t1 t2 u w1 w2 h1 h2
    obtain ⟨ts, x', hl, y'⟩ := unifyList_least ts1 ts2 us ws1 ws2 hs1 hs2
    exact ⟨t :: ts, by simp only [unifyList, x, x'], by simp only [List.length_cons, hl], .cons y y'⟩

theorem unifyFields_least : ∀ (fs1 fs2 us : List (String × ValueType)), WFMap fs1 → WFMap fs2 →
    LeFields fs1 us → LeFields fs2 us →
    ∃ fs, unifyFields fs1 fs2 = some fs ∧ fs1.length = fs2.length ∧ LeFields fs us
  | [], _, _, _, _, .nil, .nil => ⟨[], by simp only [unifyFields], rfl, .nil⟩
  | (_, _) :: _, [], [], _, _, h1, _ => nomatch h1
  | (_, _) :: _, [], _ :: _, _, _, _, h2 => nomatch h2
  | (l1, t1) :: fs1, (_, t2) :: fs2, (_, u) :: us, .cons w1 ws1, .cons w2 ws2, .cons h1 hs1,
      .cons h2 hs2 => by
    obtain ⟨t, x, y⟩ := unify_least t1 t2 u w1 w2 h1 h2
    obtain ⟨ts, x', hl, y'⟩ := unifyFields_least fs1 fs2 us ws1 ws2 hs1 hs2
    exact ⟨(l1, t) :: ts, by simp only [unifyFields, x, x', if_true],
      by simp only [List.length_cons, hl], .cons y y'⟩

theorem unifyInto_least : ∀ (bs1 bs cs : List (String × ValueType)), WFMap bs1 → TMap.Sorted bs →
    WFMap bs → LeMap bs1 cs →
    (∀ k u, TMap.get k bs = some u → ∃ w, TMap.get k cs = some w ∧ Le u w) →
    ∃ r, unifyInto bs1 bs = some r ∧ ∀ k u, TMap.get k r = some u → ∃ w, TMap.get k cs = some w ∧ Le u w
  | [], bs, cs, _, _, _, _, h => ⟨bs, by simp only [unifyInto], h⟩
  | (k, t1) :: bs1, bs, cs, .cons w1 ws1, hs, w, .cons (u := v) hg h1 hs1, h => by
    simp only [unifyInto]
    cases e : TMap.get k bs with
    | some t2 =>
      obtain ⟨x, hx, hle⟩ := h k t2 e
      rw [hg] at hx
      cases hx
      obtain ⟨t, y, z⟩ := unify_least t1 t2 v w1 (w.get e) h1 hle
      simp only [y]
      have wt := (unify_upper t1 t2 t w1 (w.get e) y).1
      refine unifyInto_least bs1 _ cs ws1 hs.insert (w.insert wt) hs1 ?_
      intro j u hj
      rw [TMap.get_insert] at hj
      by_cases ej : j = k
      · rw [if_pos ej] at hj; cases hj; subst ej; exact ⟨v, hg, z⟩
      · rw [if_neg ej] at hj; exact h j u hj
    | none =>
      refine unifyInto_least bs1 _ cs ws1 hs.insert (w.insert w1) hs1 ?_
      intro j u hj
      rw [TMap.get_insert] at hj
      by_cases ej : j = k
      · rw [if_pos ej] at hj; cases hj; subst ej; exact ⟨v, hg, h1⟩
      · rw [if_neg ej] at hj; exact h j u hj
end

end ValueType
end Doodle
