import Verif.Lemmas.Alias
import Verif.Spec.Inference

/-! Lemmas on the inference engine: every step is exact for the assignments of types to variables that satisfy the
engine's constraints. -/

namespace Doodle
namespace Tc
namespace Engine

open Num (MachineRep NumRep)
open Aliases (root WF)
open TypingSpec

/-- an assignment of types to variables -/
abbrev Asg := Nat → MachineRep

/-- the type meets a constraint -/
def satC : Constraint → MachineRep → Prop
  | .equiv (.int s), t => t = s
  | .equiv (.var _), _ => False
  | .encompasses b, t => t.asBounds.min ≤ b.min ∧ b.max ≤ t.asBounds.max

/-- constraints in engines that occur -/
def simple : Constraint → Prop
  | .equiv (.int _) => True
  | .equiv (.var _) => False
  | .encompasses b => b.min ≤ b.max

abbrev rt (g : Engine) (v : Nat) : Nat := root g.aliases v

structure Good (g : Engine) : Prop where
  wf : WF g.aliases
  len : g.aliases.length = g.constraints.length
  simple : ∀ v c, g.rt v = v → g.constraints[v]? = some (some c) → simple c

structure Sat (ρ : Asg) (g : Engine) : Prop where
  alias : ∀ v, v < g.constraints.length → ρ v = ρ (g.rt v)
  con : ∀ v c, g.rt v = v → g.constraints[v]? = some (some c) → satC c (ρ v)

theorem rep_ordered (p : MachineRep) : p.asBounds.min ≤ p.asBounds.max := by
  obtain ⟨s, w⟩ := p
  cases s <;> cases w <;> decide

theorem fits_eq (b : Num.Bounds) (t : MachineRep) :
    fits b t = .ok (decide (t.asBounds.min ≤ b.min) && decide (b.max ≤ t.asBounds.max)) := by
  unfold fits Num.Bounds.isEncompassedBy
  rw [if_pos (rep_ordered t)]

theorem unify_bounds {a b : Num.Bounds} (ha : a.min ≤ a.max) (hb : b.min ≤ b.max) :
    ∃ c, a.unify b = .ok c ∧ c.min ≤ c.max ∧
      ∀ lo hi : Int, (lo ≤ c.min ∧ c.max ≤ hi) ↔ (lo ≤ a.min ∧ a.max ≤ hi) ∧ (lo ≤ b.min ∧ b.max ≤ hi) := by
  unfold Num.Bounds.unify Num.Bounds.isEncompassedBy Num.Bounds.encompasses
  rw [if_pos hb]
  by_cases h1 : a.min ≥ b.min ∧ a.max ≤ b.max
  · refine ⟨b, ?_, hb, fun lo hi => by omega⟩
    simp [h1.1, h1.2]
  · have h1' : (decide (a.min ≥ b.min) && decide (a.max ≤ b.max)) = false := by
      rw [Bool.and_eq_false_iff, decide_eq_false_iff_not, decide_eq_false_iff_not]
      omega
    rw [h1']
    by_cases h2 : a.min ≤ b.min ∧ a.max ≥ b.max
    · refine ⟨a, ?_, ha, fun lo hi => by omega⟩
      simp [h2.1, h2.2, hb]
    · have h2' : (decide (a.min ≤ b.min) && decide (a.max ≥ b.max)) = false := by
        rw [Bool.and_eq_false_iff, decide_eq_false_iff_not, decide_eq_false_iff_not]
        omega
      rw [if_pos hb]
      simp only [h2']
      refine ⟨_, rfl, ?_, fun lo hi => ?_⟩
      · show min a.min b.min ≤ max a.max b.max
        omega
      · show (lo ≤ min a.min b.min ∧ max a.max b.max ≤ hi) ↔ _
        omega

/-- unification of two constraints -/
theorem unifyConstraintPair_spec (n : Nat) (g : Engine) {c1 c2 : Constraint} (h1 : simple c1) (h2 : simple c2) :
    (∃ c, unifyConstraintPair (n + 2) g c1 c2 = .ok (c, g) ∧ simple c ∧ ∀ t, satC c t ↔ satC c1 t ∧ satC c2 t) ∨
    (∃ x, unifyConstraintPair (n + 2) g c1 c2 = .err x ∧ ∀ t, ¬ (satC c1 t ∧ satC c2 t)) := by
  have mixed : ∀ (s : MachineRep) (b : Num.Bounds),
      (∃ c, unifyUtypeBounds (n + 1) g (.int s) b = .ok (c, g) ∧ simple c ∧
        ∀ t, satC c t ↔ satC (.equiv (.int s)) t ∧ satC (.encompasses b) t) ∨
      (∃ x, unifyUtypeBounds (n + 1) g (.int s) b = .err x ∧
        ∀ t, ¬ (satC (.equiv (.int s)) t ∧ satC (.encompasses b) t)) := by
    intro s b
    unfold unifyUtypeBounds
    simp only [fits_eq]
    by_cases hf : s.asBounds.min ≤ b.min ∧ b.max ≤ s.asBounds.max
    · refine .inl ⟨.equiv (.int s), ?_, trivial, fun t => ?_⟩
      · have : (decide (s.asBounds.min ≤ b.min) && decide (b.max ≤ s.asBounds.max)) = true := by
          simp [hf.1, hf.2]
        rw [this]; rfl
      · constructor
        · intro h; have h' : t = s := h; subst h'; exact ⟨rfl, hf⟩
        · exact fun h => h.1
    · refine .inr ⟨.badUnification (.equiv (.int s)) (.encompasses b), ?_, fun t h => ?_⟩
      · have : (decide (s.asBounds.min ≤ b.min) && decide (b.max ≤ s.asBounds.max)) = false := by
          rw [Bool.and_eq_false_iff, decide_eq_false_iff_not, decide_eq_false_iff_not]
          omega
        rw [this]; rfl
      · have h' : t = s := h.1
        subst h'
        exact hf h.2
  cases c1 with
  | equiv t1 =>
    cases t1 with
    | var v => exact absurd h1 id
    | int s1 =>
      cases c2 with
      | equiv t2 =>
        cases t2 with
        | var v => exact absurd h2 id
        | int s2 =>
          unfold unifyConstraintPair
          simp only
          by_cases he : s1 = s2
          · subst he
            rw [if_pos rfl]
            exact .inl ⟨_, rfl, trivial, fun t => by simp⟩
          · rw [if_neg (by intro h; cases h; exact he rfl)]
            refine .inr ⟨.badUnification (.equiv (.int s1)) (.equiv (.int s2)), ?_, fun t h => ?_⟩
            · unfold unifyUtype
              simp only [ne_eq, he, not_false_eq_true, if_true]
              rfl
            · exact he (h.1.symm.trans h.2)
      | encompasses b =>
        unfold unifyConstraintPair
        exact mixed s1 b
  | encompasses b =>
    cases c2 with
    | equiv t2 =>
      cases t2 with
      | var v => exact absurd h2 id
      | int s2 =>
        unfold unifyConstraintPair
        rcases mixed s2 b with ⟨c, e, h, h'⟩ | ⟨x, e, h⟩
        · exact .inl ⟨c, e, h, fun t => by rw [h', and_comm]⟩
        · exact .inr ⟨x, e, fun t ht => h t ht.symm⟩
    | encompasses b2 =>
      obtain ⟨c, e, h, h'⟩ := unify_bounds h1 h2
      unfold unifyConstraintPair
      simp only [e]
      exact .inl ⟨.encompasses c, rfl, h, fun t => h' t.asBounds.min t.asBounds.max⟩

/-! ### exact steps -/

/-- a step succeeds and adds exactly `P`, or fails and `P` is impossible -/
def Res {α : Type} (x : Outcome InferenceError (α × Engine)) (Q : α → Engine → Prop) (P : Asg → Prop) (g : Engine) :
    Prop :=
  (∃ a g', x = .ok (a, g') ∧ Q a g' ∧ ∀ ρ, Sat ρ g' ↔ Sat ρ g ∧ P ρ) ∨ (∃ e, x = .err e ∧ ∀ ρ, Sat ρ g → ¬ P ρ)

theorem Res.pure {α : Type} {a : α} {g : Engine} {Q : α → Engine → Prop} {P : Asg → Prop} (hq : Q a g)
    (hp : ∀ ρ, Sat ρ g → P ρ) : Res (.ok (a, g)) Q P g :=
  .inl ⟨a, g, rfl, hq, fun ρ => ⟨fun h => ⟨h, hp ρ h⟩, fun h => h.1⟩⟩

theorem Res.bind {α β : Type} {x : Outcome InferenceError (α × Engine)}
    {f : α × Engine → Outcome InferenceError (β × Engine)} {Q : α → Engine → Prop} {Q' : β → Engine → Prop}
    {P P' P'' : Asg → Prop} {g : Engine} (h : Res x Q P g)
    (hf : ∀ a g', Q a g' → (∀ ρ, Sat ρ g' ↔ Sat ρ g ∧ P ρ) → Res (f (a, g')) Q' P' g')
    (hp : ∀ ρ, Sat ρ g → (P'' ρ ↔ P ρ ∧ P' ρ)) : Res (x >>= f) Q' P'' g := by
  rcases h with ⟨a, g', e, hq, hs⟩ | ⟨e, he, hn⟩
  · rcases hf a g' hq hs with ⟨b, g'', e', hq', hs'⟩ | ⟨e', he', hn'⟩
    · refine .inl ⟨b, g'', ?_, hq', fun ρ => ?_⟩
      · rw [e]; exact e'
      · rw [hs', hs]
        constructor
        · rintro ⟨⟨h1, h2⟩, h3⟩; exact ⟨h1, (hp ρ h1).mpr ⟨h2, h3⟩⟩
        · rintro ⟨h1, h2⟩; have := (hp ρ h1).mp h2; exact ⟨⟨h1, this.1⟩, this.2⟩
    · refine .inr ⟨e', by rw [e]; exact he', fun ρ h1 h2 => ?_⟩
      have := (hp ρ h1).mp h2
      exact hn' ρ ((hs ρ).mpr ⟨h1, this.1⟩) this.2
  · refine .inr ⟨e, by rw [he]; rfl, fun ρ h1 h2 => hn ρ h1 ((hp ρ h1).mp h2).1⟩

theorem Res.mono {α : Type} {x : Outcome InferenceError (α × Engine)} {Q Q' : α → Engine → Prop} {P P' : Asg → Prop}
    {g : Engine} (h : Res x Q P g) (hq : ∀ a g', Q a g' → (∀ ρ, Sat ρ g' ↔ Sat ρ g ∧ P ρ) → Q' a g')
    (hp : ∀ ρ, Sat ρ g → (P' ρ ↔ P ρ)) : Res x Q' P' g := by
  rcases h with ⟨a, g', e, hq', hs⟩ | ⟨e, he, hn⟩
  · refine .inl ⟨a, g', e, hq a g' hq' hs, fun ρ => ?_⟩
    rw [hs]
    constructor
    · rintro ⟨h1, h2⟩; exact ⟨h1, (hp ρ h1).mpr h2⟩
    · rintro ⟨h1, h2⟩; exact ⟨h1, (hp ρ h1).mp h2⟩
  · exact .inr ⟨e, he, fun ρ h1 h2 => hn ρ h1 ((hp ρ h1).mp h2)⟩

/-- the variables below `m` have not been touched -/
def Frame (m : Nat) (g g' : Engine) : Prop :=
  ∀ i < m, g'.aliases[i]? = g.aliases[i]? ∧ g'.constraints[i]? = g.constraints[i]?

/-- what holds while the variables from `m` on are being worked on; `m` is the variable of the node -/
structure F (m N : Nat) (g0 g : Engine) : Prop where
  good : Good g
  len : g.constraints.length = N
  frame : Frame m g0 g
  above : ∀ i, m ≤ i → m ≤ g.rt i
  this : g.rt m = m
  lt : m < N

theorem set_sat {g : Engine} (_hg : Good g) {r : Nat} (hr : g.rt r = r) {c' : Constraint}
    {ρ : Asg} {old : Option Constraint} {P : Prop} (hold : g.constraints[r]? = some old)
    (hiff : (∀ c, old = some c → satC c (ρ r)) ∧ P ↔ satC c' (ρ r)) :
    Sat ρ (g.setConstraints r (some c')) ↔ Sat ρ g ∧ P := by
  have hlt : r < g.constraints.length := by
    rw [List.getElem?_eq_some_iff] at hold; exact hold.1
  constructor
  · intro h
    have hc' : satC c' (ρ r) := by
      apply h.con r c' hr
      show (g.constraints.set r (some c'))[r]? = _
      rw [List.getElem?_set_self hlt]
    have hh := hiff.mpr hc'
    refine ⟨⟨fun v hv => h.alias v (by show v < (g.constraints.set r (some c')).length; rw [List.length_set]; exact hv),
      fun v c hv hc => ?_⟩, hh.2⟩
    by_cases hvr : v = r
    · subst hvr
      rw [hold] at hc
      exact hh.1 c (Option.some.inj hc)
    · apply h.con v c hv
      show (g.constraints.set r (some c'))[v]? = _
      rw [List.getElem?_set_ne (Ne.symm hvr), hc]
  · rintro ⟨h, hp⟩
    refine ⟨fun v hv => h.alias v ?_, fun v c hv hc => ?_⟩
    · have hv' : v < (g.constraints.set r (some c')).length := hv
      rw [List.length_set] at hv'
      exact hv'
    · have hc1 : (g.constraints.set r (some c'))[v]? = some (some c) := hc
      by_cases hvr : v = r
      · subst hvr
        rw [List.getElem?_set_self hlt] at hc1
        cases hc1
        exact hiff.mp ⟨fun c hc2 => h.con v c hr (by rw [hold, hc2]), hp⟩
      · rw [List.getElem?_set_ne (Ne.symm hvr)] at hc1
        exact h.con v c hv hc1

theorem set_good {g : Engine} (hg : Good g) {r : Nat} {c' : Constraint} (hs : simple c') :
    Good (g.setConstraints r (some c')) := by
  refine ⟨hg.wf, ?_, fun v c hv hc => ?_⟩
  · show g.aliases.length = (g.constraints.set r (some c')).length
    rw [List.length_set]; exact hg.len
  · have hc1 : (g.constraints.set r (some c'))[v]? = some (some c) := hc
    rw [List.getElem?_set] at hc1
    split at hc1
    · split at hc1
      · cases hc1; exact hs
      · cases hc1
    · exact hg.simple v c hv hc1

theorem F.set {m N : Nat} {g0 g : Engine} (hf : F m N g0 g) {r : Nat} {c' : Constraint} (hs : simple c')
    (hr : m ≤ r) : F m N g0 (g.setConstraints r (some c')) := by
  refine ⟨set_good hf.good hs, ?_, fun i hi => ⟨(hf.frame i hi).1, ?_⟩, hf.above, hf.this, hf.lt⟩
  · show (g.constraints.set r (some c')).length = N
    rw [List.length_set]; exact hf.len
  · show (g.constraints.set r (some c'))[i]? = _
    rw [List.getElem?_set_ne (by omega)]
    exact (hf.frame i hi).2

theorem constraintsAt_ok {g : Engine} {v : Nat} (h : v < g.constraints.length) :
    ∃ o, g.constraints[v]? = some o ∧ g.constraintsAt v = .ok o := by
  refine ⟨g.constraints[v], List.getElem?_eq_getElem h, ?_⟩
  unfold constraintsAt
  rw [List.getElem?_eq_getElem h]
  rfl

/-- `unify_var_constraint` -/
theorem varConstraint_step {m N : Nat} {g0 g : Engine} (hf : F m N g0 g) {v : Nat} (hm : m ≤ v) (hv : v < N)
    {c : Constraint} (hc : simple c) (n : Nat) :
    Res (unifyVarConstraint (n + 3) g v c) (fun _ g' => F m N g0 g' ∧ g'.aliases = g.aliases)
      (fun ρ => satC c (ρ v)) g := by
  have hvl : v < g.aliases.length := by rw [hf.good.len, hf.len]; exact hv
  have hrv : g.rt v < g.constraints.length := by
    rw [hf.len]; exact Nat.lt_of_le_of_lt (Aliases.root_le hf.good.wf v) hv
  have hrr : g.rt (g.rt v) = g.rt v := Aliases.root_root hf.good.wf v
  obtain ⟨o, ho, hat⟩ := constraintsAt_ok hrv
  have hal : ∀ ρ, Sat ρ g → ρ v = ρ (g.rt v) := fun ρ h => h.alias v (by rw [hf.len]; exact hv)
  have heq : unifyVarConstraint (n + 3) g v c = (match (generalizing := false) o with
      | none => .ok (c, g.setConstraints (g.rt v) (some c))
      | some prior =>
        if prior = c then .ok (prior, g)
        else do
          let r ← unifyConstraintPair (n + 2) g prior c
          .ok (r.1, r.2.setConstraints (g.rt v) (some r.1))) := by
    unfold unifyVarConstraint
    rw [Aliases.getCanonical_ok hvl]
    show (g.constraintsAt (g.rt v) >>= _) = _
    rw [hat]
    rfl
  rw [heq]
  have hmr : m ≤ g.rt v := hf.above v hm
  cases o with
  | none =>
    refine .inl ⟨_, _, rfl, ⟨hf.set hc hmr, rfl⟩, fun ρ => ?_⟩
    constructor
    · intro h
      have := (set_sat hf.good hrr ho (P := satC c (ρ (g.rt v))) (by simp)).mp h
      refine ⟨this.1, ?_⟩
      show satC c (ρ v)
      rw [hal ρ this.1]; exact this.2
    · rintro ⟨h, hp⟩
      have hp' : satC c (ρ v) := hp
      rw [hal ρ h] at hp'
      exact (set_sat hf.good hrr ho (P := satC c (ρ (g.rt v))) (by simp)).mpr ⟨h, hp'⟩
  | some prior =>
    simp only
    by_cases he : prior = c
    · rw [if_pos he]
      refine Res.pure ⟨hf, rfl⟩ fun ρ h => ?_
      rw [hal ρ h, ← he]
      exact h.con _ _ hrr ho
    · rw [if_neg he]
      have hsp := hf.good.simple _ _ hrr ho
      rcases unifyConstraintPair_spec n g hsp hc with ⟨c', e, hs, hi⟩ | ⟨x, e, hn⟩
      · rw [e]
        refine .inl ⟨_, _, rfl, ⟨hf.set hs hmr, rfl⟩, fun ρ => ?_⟩
        have key := set_sat (ρ := ρ) hf.good hrr ho (c' := c') (P := satC c (ρ (g.rt v))) (by
          rw [hi]
          constructor
          · rintro ⟨h1, h2⟩; exact ⟨h1 _ rfl, h2⟩
          · rintro ⟨h1, h2⟩; exact ⟨fun c hc => by cases hc; exact h1, h2⟩)
        constructor
        · intro h
          have := key.mp h
          refine ⟨this.1, ?_⟩
          show satC c (ρ v)
          rw [hal ρ this.1]; exact this.2
        · rintro ⟨h, hp⟩
          have hp' : satC c (ρ v) := hp
          rw [hal ρ h] at hp'
          exact key.mpr ⟨h, hp'⟩
      · rw [e]
        refine .inr ⟨x, rfl, fun ρ h hp => ?_⟩
        have hp' : satC c (ρ v) := hp
        rw [hal ρ h] at hp'
        exact hn _ ⟨h.con _ _ hrr ho, hp'⟩

/-- `unify_var_rep` -/
theorem varRep_step {m N : Nat} {g0 g : Engine} (hf : F m N g0 g) {v : Nat} (hm : m ≤ v) (hv : v < N)
    (t : MachineRep) (n : Nat) :
    Res (unifyVarRep (n + 3) g v (.concrete t)) (fun _ g' => F m N g0 g' ∧ g'.aliases = g.aliases)
      (fun ρ => ρ v = t) g := by
  have h := varConstraint_step hf hm hv (c := .equiv (.int t)) trivial n
  unfold unifyVarRep
  exact h.bind (fun a g' hq _ => Res.pure (P := fun _ => True) hq (fun _ _ => trivial))
    (fun ρ _ => by simp [satC])

/-- `unify_var_pair`, for the variable of a node and the variable of a part of it -/
theorem varPair_step {m N : Nat} {g0 g : Engine} (hf : F m N g0 g) {v : Nat} (hm : m < v) (hv : v < N)
    (hr : g.rt v = v) (n : Nat) :
    Res (unifyVarPair (n + 4) g m v)
      (fun _ g' => F m N g0 g' ∧ ∀ w, g.rt w = w → w ≠ v → g'.rt w = w)
      (fun ρ => ρ v = ρ m) g := by
  have hml : m < g.aliases.length := by rw [hf.good.len, hf.len]; omega
  have hvl : v < g.aliases.length := by rw [hf.good.len, hf.len]; exact hv
  have hrm : root g.aliases m = m := hf.this
  have hrv : root g.aliases v = v := hr
  obtain ⟨plan, t', e, l, w, r, o, hplan⟩ := Aliases.pair_spec (w := fun _ v2 => v2) hf.good.wf hml hvl
    (fun can fwd _ hb _ _ => absurd hb ((Aliases.root_eq_self hf.good.wf).mp hrv can))
  rw [hrm, hrv] at hplan
  rcases hplan with ⟨h, _⟩ | ⟨_, hplan⟩
  · omega
  have hmin : min m v = m := by omega
  have hmax : max m v = v := by omega
  rw [hmin, hmax] at hplan
  rw [hrm, hrv, hmin, hmax] at r
  rw [hrm, hrv] at o
  subst hplan
  obtain ⟨o1, ho1, hat1⟩ := constraintsAt_ok (g := g) (v := m) (by rw [hf.len]; omega)
  obtain ⟨o2, ho2, hat2⟩ := constraintsAt_ok (g := g) (v := v) (by rw [hf.len]; exact hv)
  -- the engine with the new aliases
  have heq : unifyVarPair (n + 4) g m v = (match (generalizing := false) o1, o2 with
      | none, none => .ok ((), { g with aliases := t' })
      | none, some c2 => .ok ((), setConstraints { g with aliases := t' } m (some c2))
      | some c1, none => .ok ((), setConstraints { g with aliases := t' } v (some c1))
      | some c1, some c2 => do
        let r ← unifyConstraintPair (n + 2) { g with aliases := t' } c1 c2
        .ok ((), (r.2.setConstraints m (some r.1)).setConstraints v (some r.1))) := by
    unfold unifyVarPair
    have e' : g.aliases.pairEngine m v = .ok (.transfer m v, t') := e
    rw [e']
    show transferConstraints (n + 3) { g with aliases := t' } m v = _
    unfold transferConstraints
    rw [if_neg (by omega)]
    have a1 : constraintsAt { g with aliases := t' } m = .ok o1 := hat1
    have a2 : constraintsAt { g with aliases := t' } v = .ok o2 := hat2
    rw [a1, a2]
    rfl
  rw [heq]
  have rtm : root t' m = m := by rw [r, hrm, if_neg (by omega)]
  have rtv : root t' v = m := by rw [r, hrv, if_pos rfl]
  have rlt : ∀ i, i < N → g.rt i < N := fun i hi => Nat.lt_of_le_of_lt (Aliases.root_le hf.good.wf i) hi
  -- roots other than `v` stay roots
  have keep : ∀ x, root t' x = x → g.rt x = x ∧ x ≠ v := by
    intro x hx
    rw [r] at hx
    by_cases hxv : root g.aliases x = v
    · rw [if_pos hxv] at hx
      subst hx
      rw [hrm] at hxv
      omega
    · rw [if_neg hxv] at hx
      exact ⟨hx, fun h => hxv (by rw [h, hrv])⟩
  have keep' : ∀ x, g.rt x = x → x ≠ v → root t' x = x := by
    intro x hx hne
    have hx' : root g.aliases x = x := hx
    rw [r, hx', if_neg hne]
  -- facts about an engine with these aliases whose constraints differ at `m` and `v` only
  have hF : ∀ cs : List (Option Constraint), cs.length = N → (∀ i, i ≠ m → i ≠ v → cs[i]? = g.constraints[i]?) →
      (∀ c, cs[m]? = some (some c) → simple c) → F m N g0 ⟨cs, t'⟩ := by
    intro cs hl hc hs
    refine ⟨⟨w, by show t'.length = cs.length; rw [l, hl, hf.good.len, hf.len], ?_⟩, hl, ?_, ?_, rtm, hf.lt⟩
    · intro x c hx hxc
      obtain ⟨h1, h2⟩ := keep x hx
      by_cases hxm : x = m
      · subst hxm; exact hs c hxc
      · have hxc' : cs[x]? = some (some c) := hxc
        rw [hc x hxm h2] at hxc'
        exact hf.good.simple x c h1 hxc'
    · intro i hi
      have hri := Aliases.root_le hf.good.wf i
      refine ⟨?_, ?_⟩
      · show t'[i]? = _
        rw [o i (by omega) (by omega)]
        exact (hf.frame i hi).1
      · show cs[i]? = _
        rw [hc i (by omega) (by omega)]
        exact (hf.frame i hi).2
    · intro i hi
      show m ≤ root t' i
      rw [r]
      split
      · exact Nat.le_refl _
      · exact hf.above i hi
  -- what it means to satisfy it
  have hS : ∀ (cs : List (Option Constraint)) (ρ : Asg) , cs.length = N →
      (∀ i, i ≠ m → i ≠ v → cs[i]? = g.constraints[i]?) →
      ((∀ c, cs[m]? = some (some c) → satC c (ρ m)) ↔
        (∀ c, o1 = some c → satC c (ρ m)) ∧ (∀ c, o2 = some c → satC c (ρ m))) →
      (Sat ρ ⟨cs, t'⟩ ↔ Sat ρ g ∧ ρ v = ρ m) := by
    intro cs ρ hl hc hiff
    constructor
    · intro h
      have hvm : ρ v = ρ m := by
        have h' := h.alias v (by show v < cs.length; rw [hl]; exact hv)
        have e1 : rt ⟨cs, t'⟩ v = m := rtv
        rw [e1] at h'
        exact h'
      have hcm := hiff.mp fun c hcc => h.con m c rtm hcc
      refine ⟨⟨fun x hx => ?_, fun x c hx hxc => ?_⟩, hvm⟩
      · have hx' := h.alias x (by show x < cs.length; rw [hl, ← hf.len]; exact hx)
        have e1 : rt ⟨cs, t'⟩ x = root t' x := rfl
        rw [e1, r] at hx'
        split at hx'
        · rename_i hxv
          have e2 : g.rt x = v := hxv
          rw [e2, hx', hvm]
        · exact hx'
      · by_cases hxv : x = v
        · subst hxv
          rw [ho2] at hxc
          rw [hvm]
          exact hcm.2 c (Option.some.inj hxc)
        by_cases hxm : x = m
        · subst hxm
          rw [ho1] at hxc
          exact hcm.1 c (Option.some.inj hxc)
        · apply h.con x c (keep' x hx hxv)
          show cs[x]? = _
          rw [hc x hxm hxv, hxc]
    · rintro ⟨h, hvm⟩
      refine ⟨fun x hx => ?_, fun x c hx hxc => ?_⟩
      · have hx' := h.alias x (by rw [hf.len, ← hl]; exact hx)
        show ρ x = ρ (root t' x)
        rw [r]
        split
        · rename_i hxv
          have e2 : g.rt x = v := hxv
          rw [hx', e2, hvm]
        · exact hx'
      · obtain ⟨h1, h2⟩ := keep x hx
        by_cases hxm : x = m
        · subst hxm
          refine hiff.mpr ⟨fun c hc => h.con x c h1 (by rw [ho1, hc]), fun c hc => ?_⟩ c hxc
          rw [← hvm]
          exact h.con v c hr (by rw [ho2, hc])
        · have hxc' : cs[x]? = some (some c) := hxc
          rw [hc x hxm h2] at hxc'
          exact h.con x c h1 hxc'
  have hmc : m < g.constraints.length := by rw [hf.len]; omega
  have hvc : v < g.constraints.length := by rw [hf.len]; exact hv
  cases o1 with
  | none =>
    cases o2 with
    | none =>
      refine .inl ⟨(), _, rfl, ⟨hF g.constraints hf.len (fun _ _ _ => rfl) (fun c hc => ?_), keep'⟩, fun ρ => ?_⟩
      · rw [ho1] at hc; cases hc
      · exact hS g.constraints ρ hf.len (fun _ _ _ => rfl) (by simp [ho1])
    | some c2 =>
      have hl : (g.constraints.set m (some c2)).length = N := by rw [List.length_set, hf.len]
      have hc : ∀ i, i ≠ m → i ≠ v → (g.constraints.set m (some c2))[i]? = g.constraints[i]? :=
        fun i h1 _ => List.getElem?_set_ne (Ne.symm h1)
      have hm' : (g.constraints.set m (some c2))[m]? = some (some c2) := List.getElem?_set_self hmc
      refine .inl ⟨(), _, rfl, ⟨hF _ hl hc (fun c hc' => ?_), keep'⟩, fun ρ => ?_⟩
      · rw [hm'] at hc'; cases hc'
        exact hf.good.simple v _ hr ho2
      · exact hS _ ρ hl hc (by rw [hm']; simp)
  | some c1 =>
    cases o2 with
    | none =>
      have hl : (g.constraints.set v (some c1)).length = N := by rw [List.length_set, hf.len]
      have hc : ∀ i, i ≠ m → i ≠ v → (g.constraints.set v (some c1))[i]? = g.constraints[i]? :=
        fun i _ h1 => List.getElem?_set_ne (Ne.symm h1)
      have hm' : (g.constraints.set v (some c1))[m]? = some (some c1) := by
        rw [List.getElem?_set_ne (by omega), ho1]
      refine .inl ⟨(), _, rfl, ⟨hF _ hl hc (fun c hc' => ?_), keep'⟩, fun ρ => ?_⟩
      · rw [hm'] at hc'; cases hc'
        exact hf.good.simple m _ hf.this ho1
      · exact hS _ ρ hl hc (by rw [hm']; simp)
    | some c2 =>
      have s1 := hf.good.simple m c1 hf.this ho1
      have s2 := hf.good.simple v c2 hr ho2
      simp only
      rcases unifyConstraintPair_spec n { g with aliases := t' } s1 s2 with ⟨c', e, hs, hi⟩ | ⟨x, e, hn⟩
      · rw [e]
        have hl : ((g.constraints.set m (some c')).set v (some c')).length = N := by
          rw [List.length_set, List.length_set, hf.len]
        have hc : ∀ i, i ≠ m → i ≠ v →
            ((g.constraints.set m (some c')).set v (some c'))[i]? = g.constraints[i]? := fun i h1 h2 => by
          rw [List.getElem?_set_ne (Ne.symm h2), List.getElem?_set_ne (Ne.symm h1)]
        have hm' : ((g.constraints.set m (some c')).set v (some c'))[m]? = some (some c') := by
          rw [List.getElem?_set_ne (by omega), List.getElem?_set_self hmc]
        refine .inl ⟨(), ⟨(g.constraints.set m (some c')).set v (some c'), t'⟩, rfl,
          ⟨hF _ hl hc (fun c hc' => ?_), keep'⟩, fun ρ => ?_⟩
        · rw [hm'] at hc'; cases hc'; exact hs
        · exact hS _ ρ hl hc (by rw [hm']; simp [hi])
      · rw [e]
        refine .inr ⟨x, rfl, fun ρ h hp => ?_⟩
        have hp' : ρ v = ρ m := hp
        refine hn (ρ m) ⟨h.con m c1 hf.this ho1, ?_⟩
        rw [← hp']
        exact h.con v c2 hr ho2

/-! ### inference -/

/-- the number of nodes -/
def size : Num.Expr → Nat
  | .const _ => 1
  | .numVar _ => 1
  | .binOp _ _ l r => 1 + size l + size r
  | .unaryOp _ _ e => 1 + size e
  | .cast _ _ e => 1 + size e

theorem size_pos (e : Num.Expr) : 0 < size e := by
  cases e <;> simp [size] <;> omega

/-- an assignment types an expression whose nodes are numbered in pre-order from `ix` -/
def Val (ρ : Asg) : Num.Expr → Nat → Prop
  | .const c, ix => match c.rep with
    | .auto => ρ ix |>.asBounds |> fun b => b.min ≤ c.val ∧ c.val ≤ b.max
    | .concrete t => ρ ix = t
  | .binOp _ o l r, ix => Val ρ l (ix + 1) ∧ Val ρ r (ix + 1 + size l) ∧
    match o with
    | none => ρ (ix + 1) = ρ ix ∧ ρ (ix + 1 + size l) = ρ ix
    | some t => ρ ix = t ∧ (untyped l = true → ρ (ix + 1) = t) ∧ (untyped r = true → ρ (ix + 1 + size l) = t)
  | .unaryOp _ o e, ix => Val ρ e (ix + 1) ∧
    match o with
    | none => ρ (ix + 1) = ρ ix
    | some t => ρ ix = t ∧ (untyped e = true → ρ (ix + 1) = t)
  | .cast t _ e, ix => Val ρ e (ix + 1) ∧ ρ ix = t ∧ (untyped e = true → ρ (ix + 1) = t)
  | .numVar _, _ => False

/-- a new variable -/
theorem fresh_spec {g : Engine} (hg : Good g) :
    F g.constraints.length (g.constraints.length + 1) g g.getNewNvar.2 ∧
      ∀ ρ, Sat ρ g.getNewNvar.2 ↔ Sat ρ g := by
  have hc : ∀ (v : Nat) (c : Constraint), (g.constraints ++ [none])[v]? = some (some c) → g.constraints[v]? = some (some c) := by
    intro v c h
    by_cases hv : v < g.constraints.length
    · rw [List.getElem?_append_left hv] at h; exact h
    · rw [List.getElem?_append_right (by omega), List.getElem?_singleton] at h
      split at h <;> cases h
  have hr : ∀ v, rt g.getNewNvar.2 v = g.rt v := fun v => Aliases.root_push v
  have hself : ∀ v, g.constraints.length ≤ v → g.rt v = v := fun v hv => by
    rw [rt, Aliases.root_eq_self hg.wf]
    intro c hc
    have := Aliases.lt_of_get hc
    rw [hg.len] at this
    omega
  refine ⟨⟨⟨Aliases.wf_push hg.wf, ?_, fun v c hv h => ?_⟩, ?_, fun i hi => ⟨?_, ?_⟩, fun i hi => ?_, ?_, by omega⟩,
    fun ρ => ⟨fun h => ⟨fun v hv => ?_, fun v c hv h' => ?_⟩, fun h => ⟨fun v hv => ?_, fun v c hv h' => ?_⟩⟩⟩
  · show (g.aliases ++ [Alias.ground]).length = (g.constraints ++ [none]).length
    rw [List.length_append, List.length_append, hg.len]; rfl
  · rw [hr] at hv
    exact hg.simple v c hv (hc v c h)
  · show (g.constraints ++ [none]).length = _
    rw [List.length_append]; rfl
  · show (g.aliases ++ [Alias.ground])[i]? = _
    rw [List.getElem?_append_left (by rw [hg.len]; exact hi)]
  · show (g.constraints ++ [none])[i]? = _
    rw [List.getElem?_append_left hi]
  · rw [hr, hself i hi]; exact hi
  · rw [hr, hself _ (Nat.le_refl _)]
  · have := h.alias v (by show v < (g.constraints ++ [none]).length; rw [List.length_append]; omega)
    rw [hr] at this
    exact this
  · apply h.con v c (by rw [hr]; exact hv)
    show (g.constraints ++ [none])[v]? = _
    rw [List.getElem?_append_left, h']
    rw [List.getElem?_eq_some_iff] at h'
    exact h'.1
  · rw [hr]
    by_cases hv' : v < g.constraints.length
    · exact h.alias v hv'
    · rw [hself v (by omega)]
  · rw [hr] at hv
    exact h.con v c hv (hc v c h')

/-- after a part has been inferred, its parent can go on -/
theorem F.extend {m N N' : Nat} {g0 g g' : Engine} (hf : F m N g0 g) (hg : Good g') (hl : g'.constraints.length = N')
    (hle : N < N') (hfr : Frame N g g') (ha : ∀ i, N ≤ i → N ≤ g'.rt i) : F m N' g0 g' := by
  have hlt := hf.lt
  have hrt : ∀ i, i < N → g'.rt i = g.rt i := fun i hi => by
    unfold rt root
    rw [(hfr i hi).1]
  refine ⟨hg, hl, fun i hi => ⟨?_, ?_⟩, fun i hi => ?_, ?_, by omega⟩
  · rw [(hfr i (by omega)).1, (hf.frame i hi).1]
  · rw [(hfr i (by omega)).2, (hf.frame i hi).2]
  · by_cases h : i < N
    · rw [hrt i h]; exact hf.above i hi
    · exact Nat.le_trans (by omega) (ha i (by omega))
  · rw [hrt m hlt]; exact hf.this

/-- the type named by an operation, given those of its operands -/
def binRep (l r : NumRep) : Option MachineRep → NumRep
  | some t => .concrete t
  | none => match l with
    | .auto => r
    | .concrete t => .concrete t

def unRep (l : NumRep) : Option MachineRep → NumRep
  | some t => .concrete t
  | none => l

theorem inferBin_step {m N : Nat} {g0 g : Engine} (hf : F m N g0 g) {l r : Nat} (hml : m < l) (hlr : l < r)
    (hr : r < N) (hrl : g.rt l = l) (hrr : g.rt r = r) (lRep rRep : NumRep) (cast : Option MachineRep) (n : Nat)
    (hl' : ∀ t, lRep = .concrete t → ∀ ρ, Sat ρ g → ρ l = t)
    (hr' : ∀ t, rRep = .concrete t → ∀ ρ, Sat ρ g → ρ r = t) :
    Res (inferBin (n + 4) g m l r lRep rRep cast)
      (fun rep g' => F m N g0 g' ∧ rep = binRep lRep rRep cast)
      (fun ρ => match cast with
        | none => ρ l = ρ m ∧ ρ r = ρ m
        | some t => ρ m = t ∧ (lRep = .auto → ρ l = t) ∧ (rRep = .auto → ρ r = t)) g := by
  have hlN : l < N := by omega
  have hmN : m < N := by omega
  have single : ∀ (rep : MachineRep) (P : Asg → Prop), (∀ ρ, Sat ρ g → (P ρ ↔ ρ m = rep)) →
      ∀ out, out = NumRep.concrete rep → out = binRep lRep rRep cast →
      Res (unifyVarRep (n + 4) g m (.concrete rep) >>= fun c => .ok (out, c.2))
        (fun rep g' => F m N g0 g' ∧ rep = binRep lRep rRep cast) P g := by
    intro rep P hP out ho hb
    refine (varRep_step hf (Nat.le_refl m) hmN rep (n + 1)).bind (P' := fun _ => True)
      (fun a g' hq _ => Res.pure ⟨hq.1, hb⟩ fun _ _ => trivial) (fun ρ h => by rw [hP ρ h]; simp)
  cases lRep with
  | auto =>
    cases rRep with
    | auto =>
      unfold inferBin
      simp only
      refine (varPair_step hf hml hlN hrl n).bind
        (P' := fun ρ => ρ r = ρ m ∧ match cast with | none => True | some t => ρ m = t) ?_ ?_
      · intro _ g1 h1 _
        refine (varPair_step h1.1 (by omega) hr (h1.2 r hrr (by omega)) n).bind
          (P' := fun ρ => match cast with | none => True | some t => ρ m = t) ?_ (fun ρ _ => Iff.rfl)
        intro _ g2 h2 _
        cases cast with
        | none => exact Res.pure ⟨h2.1, rfl⟩ fun _ _ => trivial
        | some t =>
          refine (varRep_step h2.1 (Nat.le_refl m) hmN t (n + 1)).bind (P' := fun _ => True)
            (fun a g' hq _ => Res.pure ⟨hq.1, rfl⟩ fun _ _ => trivial) (fun ρ h => by simp)
      · intro ρ _
        cases cast with
        | none => simp
        | some t =>
          simp only [true_implies]
          constructor
          · rintro ⟨h1, h2, h3⟩; exact ⟨by rw [h1, h2], by rw [h1, h3], h1⟩
          · rintro ⟨h1, h2, h3⟩; exact ⟨h3, by rw [h1, h3], by rw [h2, h3]⟩
    | concrete tr =>
      unfold inferBin
      simp only
      rw [if_neg (by intro h; cases h)]
      have hρ := hr' tr rfl
      cases cast with
      | none =>
        simp only [NumRep.isAuto, if_true]
        refine (varRep_step hf (Nat.le_refl m) hmN tr (n + 1)).bind (P' := fun ρ => ρ l = tr) ?_ ?_
        · intro _ g1 h1 _
          refine (varRep_step h1.1 (Nat.le_of_lt hml) hlN tr (n + 1)).bind (P' := fun _ => True)
            (fun a g' hq _ => Res.pure ⟨hq.1, rfl⟩ fun _ _ => trivial) (fun ρ h => by simp)
        · intro ρ h
          rw [hρ ρ h]
          constructor
          · rintro ⟨h1, h2⟩; exact ⟨h2.symm, by rw [h1, h2]⟩
          · rintro ⟨h1, h2⟩; exact ⟨by rw [h1, h2], h1.symm⟩
      | some t =>
        simp only [NumRep.isAuto, if_true]
        refine (varRep_step hf (Nat.le_refl m) hmN t (n + 1)).bind (P' := fun ρ => ρ l = ρ m) ?_ ?_
        · intro _ g1 h1 _
          have hrl1 : g1.rt l = l := by
            show root g1.aliases l = l
            rw [h1.2]; exact hrl
          refine (varPair_step h1.1 hml hlN hrl1 n).bind (P' := fun _ => True)
            (fun a g' hq _ => ?_) (fun ρ h => by simp)
          exact Res.pure ⟨hq.1, rfl⟩ fun _ _ => trivial
        · intro ρ h
          simp only [true_implies, reduceCtorEq, false_implies, and_true]
          constructor
          · rintro ⟨h1, h2⟩; exact ⟨h1, by rw [h1, h2]⟩
          · rintro ⟨h1, h2⟩; exact ⟨h1, by rw [h2, h1]⟩
  | concrete tl =>
    have hρl := hl' tl rfl
    cases rRep with
    | auto =>
      unfold inferBin
      simp only
      rw [if_neg (by intro h; cases h)]
      cases cast with
      | none =>
        simp only [NumRep.isAuto, if_true, Bool.false_eq_true, if_false]
        refine (varRep_step hf (Nat.le_refl m) hmN tl (n + 1)).bind (P' := fun ρ => ρ r = tl) ?_ ?_
        · intro _ g1 h1 _
          refine (varRep_step h1.1 (by omega) hr tl (n + 1)).bind (P' := fun _ => True)
            (fun a g' hq _ => Res.pure ⟨hq.1, rfl⟩ fun _ _ => trivial) (fun ρ h => by simp)
        · intro ρ h
          rw [hρl ρ h]
          constructor
          · rintro ⟨h1, h2⟩; exact ⟨h1.symm, by rw [h2, h1]⟩
          · rintro ⟨h1, h2⟩; exact ⟨h1.symm, by rw [h1, h2]⟩
      | some t =>
        simp only [NumRep.isAuto, if_true, Bool.false_eq_true, if_false]
        refine (varRep_step hf (Nat.le_refl m) hmN t (n + 1)).bind (P' := fun ρ => ρ r = ρ m) ?_ ?_
        · intro _ g1 h1 _
          have hrr1 : g1.rt r = r := by
            show root g1.aliases r = r
            rw [h1.2]; exact hrr
          show Res (unifyVarPair (n + 4) g1 m r >>= _) _ _ _
          refine (varPair_step h1.1 (by omega) hr hrr1 n).bind (P' := fun _ => True)
            (fun a g' hq _ => ?_) (fun ρ h => by simp)
          exact Res.pure ⟨hq.1, rfl⟩ fun _ _ => trivial
        · intro ρ h
          simp only [true_implies, reduceCtorEq, false_implies, true_and]
          constructor
          · rintro ⟨h1, h2⟩; exact ⟨h1, by rw [h1, h2]⟩
          · rintro ⟨h1, h2⟩; exact ⟨h1, by rw [h2, h1]⟩
    | concrete tr =>
      have hρr := hr' tr rfl
      unfold inferBin
      simp only
      by_cases he : tl = tr
      · subst he
        rw [if_pos rfl]
        cases cast with
        | none =>
          refine single tl _ (fun ρ h => ?_) _ rfl rfl
          simp only
          rw [hρl ρ h, hρr ρ h]
          exact ⟨fun h => h.1.symm, fun h => ⟨h.symm, h.symm⟩⟩
        | some t =>
          refine single t _ (fun ρ h => ?_) _ rfl rfl
          simp
      · rw [if_neg (by intro h; cases h; exact he rfl)]
        cases cast with
        | none =>
          simp only [NumRep.isAuto, Bool.false_eq_true, if_false]
          refine .inr ⟨_, rfl, fun ρ h hp => he ?_⟩
          rw [← hρl ρ h, ← hρr ρ h, hp.1, hp.2]
        | some t =>
          simp only [NumRep.isAuto, Bool.false_eq_true, if_false]
          refine single t _ (fun ρ h => ?_) _ rfl rfl
          simp

theorem inferUnary_step {m N : Nat} {g0 g : Engine} (hf : F m N g0 g) {l : Nat} (hml : m < l) (hlN : l < N)
    (hrl : g.rt l = l) (lRep : NumRep) (cast : Option MachineRep) (n : Nat)
    (hl' : ∀ t, lRep = .concrete t → ∀ ρ, Sat ρ g → ρ l = t) :
    Res (inferUnary (n + 4) g m l lRep cast)
      (fun rep g' => F m N g0 g' ∧ rep = unRep lRep cast)
      (fun ρ => match cast with
        | none => ρ l = ρ m
        | some t => ρ m = t ∧ (lRep = .auto → ρ l = t)) g := by
  have hmN : m < N := by omega
  cases lRep with
  | auto =>
    unfold inferUnary
    simp only
    refine (varPair_step hf hml hlN hrl n).bind
      (P' := fun ρ => match cast with | none => True | some t => ρ m = t) ?_ ?_
    · intro _ g2 h2 _
      cases cast with
      | none => exact Res.pure ⟨h2.1, rfl⟩ fun _ _ => trivial
      | some t =>
        refine (varRep_step h2.1 (Nat.le_refl m) hmN t (n + 1)).bind (P' := fun _ => True)
          (fun a g' hq _ => Res.pure ⟨hq.1, rfl⟩ fun _ _ => trivial) (fun ρ h => by simp)
    · intro ρ _
      cases cast with
      | none => simp
      | some t =>
        simp only [true_implies]
        constructor
        · rintro ⟨h1, h2⟩; exact ⟨by rw [h1, h2], h1⟩
        · rintro ⟨h1, h2⟩; exact ⟨h2, by rw [h1, h2]⟩
  | concrete tl =>
    have hρl := hl' tl rfl
    unfold inferUnary
    simp only
    cases cast with
    | none =>
      refine (varRep_step hf (Nat.le_refl m) hmN tl (n + 1)).bind (P' := fun _ => True)
        (fun a g' hq _ => Res.pure ⟨hq.1, rfl⟩ fun _ _ => trivial) (fun ρ h => ?_)
      simp only [and_true]
      rw [hρl ρ h]
      exact eq_comm
    | some t =>
      refine (varRep_step hf (Nat.le_refl m) hmN t (n + 1)).bind (P' := fun _ => True)
        (fun a g' hq _ => Res.pure ⟨hq.1, rfl⟩ fun _ _ => trivial) (fun ρ h => ?_)
      simp

/-- what an inferred expression leaves behind -/
structure Inferred (e : Num.Expr) (g : Engine) (a : Nat × NumRep) (g' : Engine) : Prop where
  var : a.1 = g.constraints.length
  f : F g.constraints.length (g.constraints.length + size e) g g'
  rep : a.2.isAuto = untyped e
  named : ∀ t, a.2 = .concrete t → ∀ ρ, Val ρ e g.constraints.length → ρ g.constraints.length = t

theorem isAuto_iff (r : NumRep) : r.isAuto = true ↔ r = .auto := by
  cases r <;> simp [NumRep.isAuto]

theorem untyped_iff {e : Num.Expr} {r : NumRep} (h : r.isAuto = untyped e) : untyped e = true ↔ r = .auto := by
  rw [← h, isAuto_iff]

/-- inference is exact -/
theorem infer_spec (n : Nat) : ∀ (e : Num.Expr) (g : Engine), Good g →
    Res (inferVarExpr (n + 4) e g) (Inferred e g) (fun ρ => Val ρ e g.constraints.length) g
  | .numVar l, g, _ => .inr ⟨_, rfl, fun _ _ h => h⟩
  | .const ⟨v, .auto⟩, g, hg => by
    obtain ⟨hf, hs⟩ := fresh_spec hg
    have h := varConstraint_step hf (Nat.le_refl _) (by omega) (c := .encompasses ⟨v, v⟩) (Int.le_refl v) (n + 1)
    unfold inferVarExpr
    have h2 : Res (unifyVarConstraint (n + 4) g.getNewNvar.2 g.getNewNvar.1 (.encompasses ⟨v, v⟩) >>= fun r =>
        Outcome.ok ((g.getNewNvar.1, NumRep.auto), r.2)) (Inferred (.const ⟨v, .auto⟩) g)
        (fun ρ => Val ρ (.const ⟨v, .auto⟩) g.constraints.length) g.getNewNvar.2 := by
      refine h.bind (P' := fun _ => True) (fun a g' hq _ => Res.pure ⟨rfl, hq.1, rfl, ?_⟩ fun _ _ => trivial)
        (fun ρ _ => by simp [Val, satC])
      intro t ht; cases ht
    rcases h2 with ⟨a, g', e, hq, hsat⟩ | ⟨x, e, hn⟩
    · exact .inl ⟨a, g', e, hq, fun ρ => by rw [hsat, hs]⟩
    · exact .inr ⟨x, e, fun ρ h => hn ρ ((hs ρ).mpr h)⟩
  | .const ⟨v, .concrete t⟩, g, hg => by
    obtain ⟨hf, hs⟩ := fresh_spec hg
    have h := varConstraint_step hf (Nat.le_refl _) (by omega) (c := .equiv (.int t)) trivial (n + 1)
    unfold inferVarExpr initVarSimple
    have h2 : Res ((unifyVarConstraint (n + 4) g.getNewNvar.2 g.getNewNvar.1 (.equiv (.int t)) >>= fun r =>
        Outcome.ok (g.getNewNvar.1, r.2)) >>= fun r => Outcome.ok ((r.1, NumRep.concrete t), r.2))
        (Inferred (.const ⟨v, .concrete t⟩) g)
        (fun ρ => Val ρ (.const ⟨v, .concrete t⟩) g.constraints.length) g.getNewNvar.2 := by
      refine Res.bind (Q := fun a g' => a = g.constraints.length ∧
          F g.constraints.length (g.constraints.length + 1) g g')
        (h.bind (P' := fun _ => True) (P'' := fun ρ => ρ g.constraints.length = t)
          (fun a g' hq _ => Res.pure ⟨rfl, hq.1⟩ fun _ _ => trivial) (fun ρ _ => by simp [satC]))
        (P' := fun _ => True)
        (fun a g' hq _ => Res.pure ⟨hq.1, hq.2, rfl, ?_⟩ fun _ _ => trivial) (fun ρ _ => by simp [Val])
      intro t' ht ρ hv
      cases ht
      exact hv
    rcases h2 with ⟨a, g', e, hq, hsat⟩ | ⟨x, e, hn⟩
    · exact .inl ⟨a, g', e, hq, fun ρ => by rw [hsat, hs]⟩
    · exact .inr ⟨x, e, fun ρ h => hn ρ ((hs ρ).mpr h)⟩
  | .binOp op cast lhs rhs, g, hg => by
    obtain ⟨hf, hs⟩ := fresh_spec hg
    have ihl := infer_spec n lhs g.getNewNvar.2 hf.good
    have hlen : g.getNewNvar.2.constraints.length = g.constraints.length + 1 := hf.len
    have hpl := size_pos lhs
    have hpr := size_pos rhs
    have h2 : Res (inferVarExpr (n + 4) (.binOp op cast lhs rhs) g) (Inferred (.binOp op cast lhs rhs) g)
        (fun ρ => Val ρ (.binOp op cast lhs rhs) g.constraints.length) g.getNewNvar.2 := by
      unfold inferVarExpr
      refine ihl.bind (P' := fun ρ => Val ρ rhs (g.constraints.length + 1 + size lhs) ∧
        match cast with
        | none => ρ (g.constraints.length + 1) = ρ g.constraints.length ∧
            ρ (g.constraints.length + 1 + size lhs) = ρ g.constraints.length
        | some t => ρ g.constraints.length = t ∧ (untyped lhs = true → ρ (g.constraints.length + 1) = t) ∧
            (untyped rhs = true → ρ (g.constraints.length + 1 + size lhs) = t)) ?_ (fun ρ _ => by rw [hlen]; rfl)
      rintro ⟨lv, lrep⟩ g1 hi1 hs1
      obtain ⟨hv1, hf1, hr1, hn1⟩ := hi1
      rw [hlen] at hv1 hf1 hn1 hs1
      have hlen1 : g1.constraints.length = g.constraints.length + 1 + size lhs := hf1.len
      have ihr := infer_spec n rhs g1 hf1.good
      have fl := hf.extend hf1.good hlen1 (by omega) hf1.frame hf1.above
      refine ihr.bind (P' := fun ρ =>
        match cast with
        | none => ρ (g.constraints.length + 1) = ρ g.constraints.length ∧
            ρ (g.constraints.length + 1 + size lhs) = ρ g.constraints.length
        | some t => ρ g.constraints.length = t ∧ (untyped lhs = true → ρ (g.constraints.length + 1) = t) ∧
            (untyped rhs = true → ρ (g.constraints.length + 1 + size lhs) = t)) ?_ (fun ρ _ => by rw [hlen1])
      rintro ⟨rv, rrep⟩ g2 hi2 hs2
      obtain ⟨hv2, hf2, hr2, hn2⟩ := hi2
      rw [hlen1] at hv2 hf2 hn2 hs2
      have fr := fl.extend hf2.good hf2.len (by omega) hf2.frame hf2.above
      simp only at hv1 hv2 hr1 hr2 hn1 hn2
      subst hv1 hv2
      have rl : g2.rt (g.constraints.length + 1) = g.constraints.length + 1 := by
        have : g2.rt (g.constraints.length + 1) = g1.rt (g.constraints.length + 1) := by
          unfold rt root
          rw [(hf2.frame _ (by omega)).1]
        rw [this]; exact hf1.this
      have hb := inferBin_step fr (l := g.constraints.length + 1) (r := g.constraints.length + 1 + size lhs)
        (by omega) (by omega) (by omega) rl hf2.this lrep rrep cast n
        (fun t ht ρ hρ => hn1 t ht ρ ((hs1 ρ).mp ((hs2 ρ).mp hρ).1).2)
        (fun t ht ρ hρ => hn2 t ht ρ ((hs2 ρ).mp hρ).2)
      refine hb.bind (P' := fun _ => True) ?_ ?_
      · rintro rep g3 ⟨f3, hrep⟩ hs3
        refine Res.pure ⟨rfl, ?_, ?_, ?_⟩ fun _ _ => trivial
        · have e1 : g.constraints.length + size (.binOp op cast lhs rhs) =
              g.constraints.length + 1 + size lhs + size rhs := by simp only [size]; omega
          rw [e1]; exact f3
        · show rep.isAuto = _
          rw [hrep]
          cases cast with
          | some t => rfl
          | none =>
            simp only [binRep, untyped, Option.isNone_none, Bool.true_and, ← hr1, ← hr2]
            cases lrep <;> rfl
        · intro t ht ρ hv
          have ht' : rep = .concrete t := ht
          rw [hrep] at ht'
          obtain ⟨v1, v2, v3⟩ := hv
          cases cast with
          | some t' =>
            cases ht'
            exact v3.1
          | none =>
            simp only at v3
            simp only [binRep] at ht'
            cases lrep with
            | auto => rw [← v3.2]; exact hn2 t ht' ρ v2
            | concrete tl => rw [← v3.1]; exact hn1 t ht' ρ v1
      · intro ρ _
        cases cast with
        | none => simp
        | some t =>
          simp only [and_true]
          rw [untyped_iff hr1, untyped_iff hr2]
    rcases h2 with ⟨a, g', e, hq, hsat⟩ | ⟨x, e, hn⟩
    · exact .inl ⟨a, g', e, hq, fun ρ => by rw [hsat, hs]⟩
    · exact .inr ⟨x, e, fun ρ h => hn ρ ((hs ρ).mpr h)⟩
  | .unaryOp op cast e, g, hg => by
    obtain ⟨hf, hs⟩ := fresh_spec hg
    have ihl := infer_spec n e g.getNewNvar.2 hf.good
    have hlen : g.getNewNvar.2.constraints.length = g.constraints.length + 1 := hf.len
    have hpl := size_pos e
    have h2 : Res (inferVarExpr (n + 4) (.unaryOp op cast e) g) (Inferred (.unaryOp op cast e) g)
        (fun ρ => Val ρ (.unaryOp op cast e) g.constraints.length) g.getNewNvar.2 := by
      unfold inferVarExpr
      refine ihl.bind (P' := fun ρ =>
        match cast with
        | none => ρ (g.constraints.length + 1) = ρ g.constraints.length
        | some t => ρ g.constraints.length = t ∧ (untyped e = true → ρ (g.constraints.length + 1) = t)) ?_
        (fun ρ _ => by rw [hlen]; rfl)
      rintro ⟨lv, lrep⟩ g1 hi1 hs1
      obtain ⟨hv1, hf1, hr1, hn1⟩ := hi1
      rw [hlen] at hv1 hf1 hn1 hs1
      have hlen1 : g1.constraints.length = g.constraints.length + 1 + size e := hf1.len
      have fl := hf.extend hf1.good hlen1 (by omega) hf1.frame hf1.above
      simp only at hv1 hr1 hn1
      subst hv1
      have hb := inferUnary_step fl (l := g.constraints.length + 1)
        (by omega) (by omega) hf1.this lrep cast n
        (fun t ht ρ hρ => hn1 t ht ρ ((hs1 ρ).mp hρ).2)
      refine hb.bind (P' := fun _ => True) ?_ ?_
      · rintro rep g3 ⟨f3, hrep⟩ hs3
        refine Res.pure ⟨rfl, ?_, ?_, ?_⟩ fun _ _ => trivial
        · have e1 : g.constraints.length + size (.unaryOp op cast e) =
              g.constraints.length + 1 + size e := by simp only [size]; omega
          rw [e1]; exact f3
        · show rep.isAuto = _
          rw [hrep]
          cases cast with
          | some t => rfl
          | none => simp only [unRep, untyped, Option.isNone_none, Bool.true_and, ← hr1]
        · intro t ht ρ hv
          have ht' : rep = .concrete t := ht
          rw [hrep] at ht'
          obtain ⟨v1, v3⟩ := hv
          cases cast with
          | some t' =>
            cases ht'
            exact v3.1
          | none =>
            simp only at v3
            rw [← v3]; exact hn1 t ht' ρ v1
      · intro ρ _
        cases cast with
        | none => simp
        | some t =>
          simp only [and_true]
          rw [untyped_iff hr1]
    rcases h2 with ⟨a, g', e, hq, hsat⟩ | ⟨x, e, hn⟩
    · exact .inl ⟨a, g', e, hq, fun ρ => by rw [hsat, hs]⟩
    · exact .inr ⟨x, e, fun ρ h => hn ρ ((hs ρ).mpr h)⟩
  | .cast t bw e, g, hg => by
    obtain ⟨hf, hs⟩ := fresh_spec hg
    have ihl := infer_spec n e g.getNewNvar.2 hf.good
    have hlen : g.getNewNvar.2.constraints.length = g.constraints.length + 1 := hf.len
    have hpl := size_pos e
    have h2 : Res (inferVarExpr (n + 4) (.cast t bw e) g) (Inferred (.cast t bw e) g)
        (fun ρ => Val ρ (.cast t bw e) g.constraints.length) g.getNewNvar.2 := by
      unfold inferVarExpr
      refine ihl.bind (P' := fun ρ => ρ g.constraints.length = t ∧
        (untyped e = true → ρ (g.constraints.length + 1) = t)) ?_ (fun ρ _ => by rw [hlen]; rfl)
      rintro ⟨lv, lrep⟩ g1 hi1 hs1
      obtain ⟨hv1, hf1, hr1, hn1⟩ := hi1
      rw [hlen] at hv1 hf1 hn1 hs1
      have hlen1 : g1.constraints.length = g.constraints.length + 1 + size e := hf1.len
      have fl := hf.extend hf1.good hlen1 (by omega) hf1.frame hf1.above
      simp only at hv1 hr1 hn1
      subst hv1
      have fin : ∀ g2, F g.constraints.length (g.constraints.length + 1 + size e) g g2 →
          Res (unifyVarRep (n + 4) g2 g.constraints.length (.concrete t) >>= fun c =>
            Outcome.ok ((g.constraints.length, NumRep.concrete t), c.2)) (Inferred (.cast t bw e) g)
            (fun ρ => ρ g.constraints.length = t) g2 := by
        intro g2 f2
        refine (varRep_step f2 (Nat.le_refl _) (by omega) t (n + 1)).bind (P' := fun _ => True) ?_
          (fun ρ _ => by simp)
        rintro _ g3 ⟨f3, _⟩ _
        refine Res.pure ⟨rfl, ?_, rfl, ?_⟩ fun _ _ => trivial
        · have e1 : g.constraints.length + size (.cast t bw e) = g.constraints.length + 1 + size e := by
            simp only [size]; omega
          rw [e1]; exact f3
        · intro t' ht ρ hv
          cases ht
          exact hv.2.1
      cases lrep with
      | auto =>
        have hu : untyped e = true := hr1.symm
        show Res (unifyVarRep (n + 4) g1 (g.constraints.length + 1) (.concrete t) >>= fun c =>
          unifyVarRep (n + 4) c.2 g.constraints.length (.concrete t) >>= fun c =>
            Outcome.ok ((g.constraints.length, NumRep.concrete t), c.2)) _ _ _
        refine (varRep_step fl (by omega) (by omega) t (n + 1)).bind
          (P' := fun ρ => ρ g.constraints.length = t) ?_ ?_
        · rintro _ g2 ⟨f2, _⟩ _
          exact fin g2 f2
        · intro ρ _
          simp only [hu, true_implies]
          exact and_comm
      | concrete tl =>
        have hu : untyped e = false := hr1.symm
        show Res (unifyVarRep (n + 4) g1 g.constraints.length (.concrete t) >>= fun c =>
            Outcome.ok ((g.constraints.length, NumRep.concrete t), c.2)) _ _ _
        refine (fin g1 fl).mono (fun _ _ h _ => h) (fun ρ _ => by simp [hu])
    rcases h2 with ⟨a, g', e, hq, hsat⟩ | ⟨x, e, hn⟩
    · exact .inl ⟨a, g', e, hq, fun ρ => by rw [hsat, hs]⟩
    · exact .inr ⟨x, e, fun ρ h => hn ρ ((hs ρ).mpr h)⟩

end Engine
end Tc
end Doodle
