import Verif.Lemmas.Typing

/-!
Property C26: unification of value types is a lattice join.

`Le` (Spec/Typing.lean) is the information order on types, `WF` says that unions are `BTreeMap`s (keys in
order), `HasType` which values belong to a type.  `σ` is any reading of "belongs to".
-/

namespace Doodle
namespace ValueType

/-- The information order is a partial order on types. -/
theorem C26_order (t u v : ValueType) (ht : WF t) (hu : WF u) :
    Le t t ∧ (Le t u → Le u v → Le t v) ∧ (Le t u → Le u t → t = u) :=
  ⟨.refl ht, .trans, fun h h' => h.antisymm h' ht hu⟩

/-- Unification succeeds with exactly the least upper bound. -/
theorem C26_join (t1 t2 t : ValueType) (h1 : WF t1) (h2 : WF t2) :
    unify t1 t2 = some t ↔
      (WF t ∧ Le t1 t ∧ Le t2 t ∧ ∀ u, Le t1 u → Le t2 u → Le t u) := by
  constructor
  · intro h
    obtain ⟨w, a, b⟩ := unify_upper t1 t2 t h1 h2 h
    refine ⟨w, a, b, ?_⟩
    intro u ha hb
    obtain ⟨t', e, hle⟩ := unify_least t1 t2 u h1 h2 ha hb
    rw [h] at e
    cases e
    exact hle
  · intro ⟨w, a, b, hmin⟩
    obtain ⟨t', e, hle⟩ := unify_least t1 t2 t h1 h2 a b
    obtain ⟨w', a', b'⟩ := unify_upper t1 t2 t' h1 h2 e
    rw [e, hle.antisymm (hmin t' a' b') w' w]

/-- Unification fails exactly when no type is above both. -/
theorem C26_fails (t1 t2 : ValueType) (h1 : WF t1) (h2 : WF t2) :
    unify t1 t2 = none ↔ ¬ ∃ u, Le t1 u ∧ Le t2 u := by
  constructor
  · intro h ⟨u, a, b⟩
    obtain ⟨t, e, _⟩ := unify_least t1 t2 u h1 h2 a b
    rw [h] at e
    cases e
  · intro h
    cases e : unify t1 t2 with
    | none => rfl
    | some t =>
      obtain ⟨_, a, b⟩ := unify_upper t1 t2 t h1 h2 e
      exact absurd ⟨t, a, b⟩ h

theorem C26_comm (t1 t2 : ValueType) (h1 : WF t1) (h2 : WF t2) : unify t1 t2 = unify t2 t1 := by
  cases e : unify t1 t2 with
  | some t =>
    obtain ⟨w, a, b, hm⟩ := (C26_join t1 t2 t h1 h2).mp e
    exact ((C26_join t2 t1 t h2 h1).mpr ⟨w, b, a, fun u x y => hm u y x⟩).symm
  | none =>
    have := (C26_fails t1 t2 h1 h2).mp e
    exact ((C26_fails t2 t1 h2 h1).mpr fun ⟨u, x, y⟩ => this ⟨u, y, x⟩).symm

theorem C26_idem (t : ValueType) (h : WF t) : unify t t = some t :=
  (C26_join t t t h h).mpr ⟨h, .refl h, .refl h, fun _ x _ => x⟩

theorem C26_any (t : ValueType) : unify .any t = some t ∧ unify t .any = some t := by
  cases t <;> simp only [unify, and_self]

/-- The order in which a list of types is unified does not matter. -/
theorem C26_assoc (t1 t2 t3 : ValueType) (h1 : WF t1) (h2 : WF t2) (h3 : WF t3) :
    ((unify t1 t2).bind fun t => unify t t3) = ((unify t2 t3).bind fun t => unify t1 t) := by
  have key : ∀ t, ((unify t1 t2).bind fun t => unify t t3) = some t ↔
      (WF t ∧ Le t1 t ∧ Le t2 t ∧ Le t3 t ∧ ∀ u, Le t1 u → Le t2 u → Le t3 u → Le t u) := by
    intro t
    rw [Option.bind_eq_some_iff]
    constructor
    · intro ⟨x, e, e'⟩
      obtain ⟨w, a, b, hm⟩ := (C26_join t1 t2 x h1 h2).mp e
      obtain ⟨w', a', b', hm'⟩ := (C26_join x t3 t w h3).mp e'
      exact ⟨w', a.trans a', b.trans a', b', fun u p q r => hm' u (hm u p q) r⟩
    · intro ⟨w, a, b, c, hm⟩
      obtain ⟨x, e, hle⟩ := unify_least t1 t2 t h1 h2 a b
      obtain ⟨wx, ax, bx⟩ := unify_upper t1 t2 x h1 h2 e
      exact ⟨x, e, (C26_join x t3 t wx h3).mpr
        ⟨w, hle, c, fun u p q => hm u (ax.trans p) (bx.trans p) q⟩⟩
  have key' : ∀ t, ((unify t2 t3).bind fun t => unify t1 t) = some t ↔
      (WF t ∧ Le t1 t ∧ Le t2 t ∧ Le t3 t ∧ ∀ u, Le t1 u → Le t2 u → Le t3 u → Le t u) := by
    intro t
    rw [Option.bind_eq_some_iff]
    constructor
    · intro ⟨x, e, e'⟩
      obtain ⟨w, a, b, hm⟩ := (C26_join t2 t3 x h2 h3).mp e
      obtain ⟨w', a', b', hm'⟩ := (C26_join t1 x t h1 w).mp e'
      exact ⟨w', a', a.trans b', b.trans b', fun u p q r => hm' u p (hm u q r)⟩
    · intro ⟨w, a, b, c, hm⟩
      obtain ⟨x, e, hle⟩ := unify_least t2 t3 t h2 h3 b c
      obtain ⟨wx, ax, bx⟩ := unify_upper t2 t3 x h2 h3 e
      exact ⟨x, e, (C26_join t1 x t h1 wx).mpr
        ⟨w, a, hle, fun u p q => hm u p (ax.trans q) (bx.trans q)⟩⟩
  cases e : ((unify t1 t2).bind fun t => unify t t3) with
  | some t => exact ((key' t).mpr ((key t).mp e)).symm
  | none =>
    cases e' : ((unify t2 t3).bind fun t => unify t1 t) with
    | none => rfl
    | some t =>
      have := (key t).mpr ((key' t).mp e')
      rw [e] at this
      cases this

/-- Every value of either type is a value of the unified type. -/
theorem C26_values (σ : Slack) (t1 t2 t : ValueType) (h1 : WF t1) (h2 : WF t2)
    (h : unify t1 t2 = some t) (v : Value) :
    (v.HasType σ t1 → v.HasType σ t) ∧ (v.HasType σ t2 → v.HasType σ t) := by
  obtain ⟨_, a, b⟩ := unify_upper t1 t2 t h1 h2 h
  exact ⟨fun x => x.mono a, fun x => x.mono b⟩

/-- The theorems above speak about something: two unions sharing one alternative, with holes in it. -/
def exA : ValueType := .union [("a", .seq .any), ("b", .tuple [.numericHole, .bool])]
def exB : ValueType := .union [("b", .tuple [.u .b8, .any]), ("c", .viewObj)]

theorem exA_wf : WF exA := by
  refine .union (.cons ?_ (.cons ?_ .nil)) (.cons (.seq .any) (.cons (.tuple (.cons .numericHole (.cons .base .nil))) .nil))
  · intro p hp
    simp only [List.mem_singleton] at hp
    subst hp
    decide
  · intro p hp; cases hp

theorem exB_wf : WF exB := by
  refine .union (.cons ?_ (.cons ?_ .nil)) (.cons (.tuple (.cons .base (.cons .any .nil))) (.cons .viewObj .nil))
  · intro p hp
    simp only [List.mem_singleton] at hp
    subst hp
    decide
  · intro p hp; cases hp

example : WF exA ∧ WF exB ∧
    unify exA exB = some (.union [("a", .seq .any), ("b", .tuple [.u .b8, .bool]), ("c", .viewObj)]) :=
  ⟨exA_wf, exB_wf, by with_unfolding_all rfl⟩

example : (Value.variant "b" (.tuple [.numeric ⟨3, .auto⟩, .bool true])).HasType .strict exA := by
  simp only [exA, Value.HasType]
  refine ⟨_, _, rfl, rfl, ?_⟩
  exact ⟨_, rfl, ⟨rfl, rfl⟩, rfl, trivial⟩

example : unify (.record [("x", .bool)]) (.record [("y", .bool)]) = none := by with_unfolding_all rfl

end ValueType
end Doodle
