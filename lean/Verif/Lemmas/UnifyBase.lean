import Verif.Spec.Unify
import Verif.Props.BaseSet

/-! Lemmas about the parts of unification that do not change the state. -/

namespace Doodle
namespace Tc

open Num (MachineRep BitWidth)

/-! ### the monad -/

namespace TcM
variable {α β : Type}

theorem bind_eq_ok {x : TcM α} {f : α → TcM β} {st : Checker} {b : β} {st' : Checker} :
    (x >>= f) st = .ok (b, st') ↔ ∃ a st1, x st = .ok (a, st1) ∧ f a st1 = .ok (b, st') := by
  show TcM.bind x f st = _ ↔ _
  unfold TcM.bind
  cases x st with
  | ok a => obtain ⟨a, s⟩ := a; exact ⟨fun h => ⟨a, s, rfl, h⟩, fun ⟨a', s', h1, h2⟩ => by cases h1; exact h2⟩
  | err e => exact ⟨(fun h => by cases h), (fun ⟨a', _, h1, _⟩ => by cases h1)⟩
  | panic => exact ⟨(fun h => by cases h), (fun ⟨a', _, h1, _⟩ => by cases h1)⟩
  | fuel => exact ⟨(fun h => by cases h), (fun ⟨a', _, h1, _⟩ => by cases h1)⟩

theorem pure_eq_ok {a b : α} {st st' : Checker} : (pure a : TcM α) st = .ok (b, st') ↔ a = b ∧ st = st' := by
  constructor
  · intro h; cases h; exact ⟨rfl, rfl⟩
  · rintro ⟨rfl, rfl⟩; rfl

theorem fail_ne {b : α} {st st' : Checker} : (fail : TcM α) st = .ok (b, st') ↔ False :=
  ⟨(fun h => nomatch h), False.elim⟩
theorem panic_ne {b : α} {st st' : Checker} : (panic : TcM α) st = .ok (b, st') ↔ False :=
  ⟨(fun h => nomatch h), False.elim⟩
theorem fuel_ne {b : α} {st st' : Checker} : (fuel : TcM α) st = .ok (b, st') ↔ False :=
  ⟨(fun h => nomatch h), False.elim⟩

theorem ofPanicky_eq_ok {x : Panicky α} {a : α} {st st' : Checker} :
    (ofPanicky x) st = .ok (a, st') ↔ x = .ok a ∧ st = st' := by
  cases x with
  | ok b =>
    show (pure b : TcM α) st = _ ↔ _
    rw [pure_eq_ok, Panicky.ok.injEq]
  | panic => exact ⟨(fun h => nomatch h), (fun h => nomatch h.1)⟩

theorem ofOption_eq_ok {x : Option α} {a : α} {st st' : Checker} :
    (ofOption x) st = .ok (a, st') ↔ x = some a ∧ st = st' := by
  cases x with
  | some b =>
    show (pure b : TcM α) st = _ ↔ _
    rw [pure_eq_ok, Option.some.injEq]
  | none => exact ⟨(fun h => nomatch h), (fun h => nomatch h.1)⟩

theorem ite_eq_ok {c : Prop} [Decidable c] {x y : TcM α} {st : Checker} {r : α × Checker} :
    (if c then x else y) st = .ok r ↔ (c ∧ x st = .ok r) ∨ (¬ c ∧ y st = .ok r) := by
  by_cases h : c <;> simp [h]

theorem read_eq_ok {f : Checker → Outcome Unit α} {a : α} {st st' : Checker} :
    (read f) st = .ok (a, st') ↔ f st = .ok a ∧ st = st' := by
  unfold read
  cases f st with
  | ok b => simp
  | err e => simp
  | panic => simp
  | fuel => simp

end TcM

theorem getConstraints_eq_ok {ix : Nat} {c : UConstraints} {st st' : Checker} :
    getConstraints ix st = .ok (c, st') ↔ st.constraints[ix]? = some c ∧ st = st' := by
  unfold getConstraints
  cases st.constraints[ix]? with
  | some b => simp
  | none => simp

theorem setConstraints_eq_ok {ix : Nat} {c : UConstraints} {u : Unit} {st st' : Checker} :
    setConstraints ix c st = .ok (u, st') ↔
      ix < st.constraints.length ∧ st' = { st with constraints := st.constraints.set ix c } := by
  unfold setConstraints
  split
  · rename_i h
    simp only [Outcome.ok.injEq, Prod.mk.injEq, true_and, h]
    exact eq_comm
  · rename_i h
    simp [h]

theorem getVarmap_eq_ok {id : Nat} {m : VarMap} {st st' : Checker} :
    getVarmap id st = .ok (m, st') ↔ st.store id = some m ∧ st = st' := by
  unfold getVarmap
  cases st.store id with
  | some b => simp
  | none => simp

theorem setVarmap_eq_ok {id : Nat} {m : Option VarMap} {u : Unit} {st st' : Checker} :
    setVarmap id m st = .ok (u, st') ↔
      st' = { st with store := fun i => if i = id then m else st.store i } := by
  unfold setVarmap
  simp only [Outcome.ok.injEq, Prod.mk.injEq, true_and]
  exact eq_comm

theorem note_eq_ok {r : Req} {u : Unit} {st st' : Checker} :
    note r st = .ok (u, st') ↔ st' = { st with history := st.history ++ [r] } := by
  unfold note
  simp only [Outcome.ok.injEq, Prod.mk.injEq, true_and]
  exact eq_comm

theorem varianceMismatch_ne {α : Type} {id : Nat} {a : α} {st st' : Checker} :
    (varianceMismatch id : TcM α) st = .ok (a, st') ↔ False := by
  refine ⟨fun h => ?_, False.elim⟩
  unfold varianceMismatch at h
  rw [TcM.bind_eq_ok] at h
  obtain ⟨_, _, _, h⟩ := h
  exact TcM.fail_ne.mp h

theorem getCanonicalVar_eq_ok {v c : Nat} {st st' : Checker} (h : getCanonicalVar v st = .ok (c, st')) :
    v < st.aliases.length ∧ c = Aliases.root st.aliases v ∧ st = st' := by
  by_cases hv : v < st.aliases.length
  · unfold getCanonicalVar at h
    rw [Aliases.getCanonical_ok hv] at h
    simp only [Outcome.ok.injEq, Prod.mk.injEq] at h
    exact ⟨hv, h.1.symm, h.2⟩
  · exfalso
    have hn : st.aliases[v]? = none := List.getElem?_eq_none (by omega)
    have : st.aliases.getCanonical v = .panic := by
      unfold Aliases.getCanonical Aliases.get
      rw [hn]
      rfl
    unfold getCanonicalVar at h
    rw [this] at h
    cases h

/-! ### types -/

noncomputable abbrev sz (T : ValueType) : Nat := sizeOf T

theorem instList_eq_map (σ : Assignment) : ∀ ts, UType.instList σ ts = ts.map (UType.inst σ)
  | [] => rfl
  | t :: ts => by rw [UType.instList, instList_eq_map σ ts]; rfl

theorem instFields_get (σ : Assignment) (l : String) : ∀ fs, TMap.get l (UType.instFields σ fs) = (TMap.get l fs).map (UType.inst σ)
  | [] => rfl
  | (k, t) :: fs => by
    rw [UType.instFields, TMap.get, TMap.get]
    by_cases h : l = k
    · simp [h]
    · simp [h, instFields_get σ l fs]

theorem firmList_mem : ∀ {ts : List UType}, UType.FirmList ts → ∀ t ∈ ts, t.Firm
  | t :: ts, h, t', hm => by
    unfold UType.FirmList at h
    cases hm with
    | head => exact h.1
    | tail _ hm => exact firmList_mem h.2 t' hm

theorem firmFields_get {l : String} : ∀ {fs : List (String × UType)}, UType.FirmFields fs → ∀ t, TMap.get l fs = some t → t.Firm
  | (k, t) :: fs, h, t', hm => by
    unfold UType.FirmFields at h
    rw [TMap.get] at hm
    split at hm
    · cases hm; exact h.1
    · exact firmFields_get h.2 t' hm

theorem UConstraint.holds_equiv {σ : Assignment} {t : UType} (h : t.Firm) {T : ValueType} :
    (UConstraint.equiv t).Holds σ T ↔ T = t.inst σ := by
  unfold UConstraint.Holds
  constructor
  · rintro (rfl | rfl | h')
    · simp [UType.Firm] at h
    · simp [UType.Firm] at h
    · exact h'
  · exact fun h' => .inr (.inr h')

/-- the constraint leaves only one type -/
def Sharp (σ : Assignment) (c : UConstraint) (W : ValueType) : Prop :=
  (∃ t, c = .equiv t ∧ t.Firm ∧ ¬ t.IsVar ∧ t.inst σ = W) ∨
  (∃ p, c = .numTree (.single p) ∧ W = .ofMachine p) ∨
  (∃ b, c = .elem (.single b) ∧ W = .base b)

theorem ofMachine_inj {p q : MachineRep} (h : ValueType.ofMachine p = ValueType.ofMachine q) : p = q := by
  obtain ⟨a, w⟩ := p
  obtain ⟨b, v⟩ := q
  unfold ValueType.ofMachine at h
  cases a <;> cases b <;> simp at h <;> simp [h]

theorem Sharp.eq {σ : Assignment} {c : UConstraint} {W T : ValueType} (h : Sharp σ c W) (hT : c.Holds σ T) :
    T = W := by
  rcases h with ⟨t, rfl, hf, _, rfl⟩ | ⟨p, rfl, rfl⟩ | ⟨b, rfl, rfl⟩
  · exact (UConstraint.holds_equiv hf).mp hT
  · obtain ⟨r, rfl, hr⟩ := hT
    rw [of_decide_eq_true hr]
  · obtain ⟨b', rfl, hr⟩ := hT
    have := of_decide_eq_true (Panicky.ok.inj hr)
    rw [this]

/-! ### sets of candidate types -/

theorem ofMachine_eq_base {p : MachineRep} {b : BaseType} :
    ValueType.ofMachine p = .base b ↔ p.isSigned = false ∧ b = .num p.bitWidth := by
  obtain ⟨s, w⟩ := p
  unfold ValueType.ofMachine
  cases s
  · simp only [Bool.false_eq_true, if_false, ValueType.base.injEq, true_and]
    exact eq_comm
  · simp

theorem contains_uint {s : UintSet} {b : BaseType} (h : UintSet.contains s b = .ok true) : ∃ w, b = .num w := by
  cases b with
  | num w => exact ⟨w, rfl⟩
  | bool => cases h
  | char => cases h

theorem baseSet_u_num {s : UintSet} {w : BitWidth} :
    (BaseSet.u s).contains (.num w) = .ok true ↔ Member s (widthIx w) := by
  show Panicky.ok _ = Panicky.ok _ ↔ _
  rw [Panicky.ok.injEq, decide_eq_true_eq]
  exact Iff.rfl

theorem widthIx_uintAt : ∀ i, widthIx (uintAt i) = i := by decide
theorem uintAt_widthIx (w : BitWidth) : uintAt (widthIx w) = w := by cases w <;> rfl

theorem basesets_sound {s t r : BaseSet} (h : s.unify t = .ok (some r)) (b : BaseType) :
    r.contains b = .ok true ↔ s.contains b = .ok true ∧ t.contains b = .ok true := by
  cases s with
  | single b1 =>
    cases t with
    | single b2 =>
      simp only [BaseSet.unify, Panicky.ok.injEq] at h
      split at h
      · cases h; rename_i e; subst e; simp
      · cases h
    | u us =>
      simp only [BaseSet.unify] at h
      obtain ⟨c, h1, h2⟩ := Panicky.bind_eq_ok.mp h
      cases c with
      | false => cases h2
      | true =>
        cases h2
        show Panicky.ok (decide (b1 = b)) = _ ↔ Panicky.ok (decide (b1 = b)) = _ ∧ UintSet.contains us b = _
        constructor
        · intro hb
          have := of_decide_eq_true (Panicky.ok.inj hb)
          subst this
          exact ⟨hb, h1⟩
        · exact fun h => h.1
  | u us =>
    cases t with
    | single b1 =>
      simp only [BaseSet.unify] at h
      obtain ⟨c, h1, h2⟩ := Panicky.bind_eq_ok.mp h
      cases c with
      | false => cases h2
      | true =>
        cases h2
        show Panicky.ok (decide (b1 = b)) = _ ↔ UintSet.contains us b = _ ∧ Panicky.ok (decide (b1 = b)) = _
        constructor
        · intro hb
          have := of_decide_eq_true (Panicky.ok.inj hb)
          subst this
          exact ⟨h1, hb⟩
        · exact fun h => h.2
    | u us2 =>
      cases h
      have key : ∀ w, (BaseSet.u (Ranks.intersection us us2)).contains (.num w) = .ok true ↔
          (BaseSet.u us).contains (.num w) = .ok true ∧ (BaseSet.u us2).contains (.num w) = .ok true := by
        intro w
        rw [baseSet_u_num, baseSet_u_num, baseSet_u_num, member_intersection]
      constructor
      · intro hb
        obtain ⟨w, rfl⟩ := contains_uint hb
        exact (key w).mp hb
      · intro hb
        obtain ⟨w, rfl⟩ := contains_uint hb.1
        exact (key w).mpr hb

theorem baseset_toConstraint {σ : Assignment} (s : BaseSet) (T : ValueType) :
    s.toConstraint.Holds σ T ↔ ∃ b, T = .base b ∧ s.contains b = .ok true := by
  cases s with
  | single b =>
    show (UConstraint.equiv (.base b)).Holds σ T ↔ _
    rw [UConstraint.holds_equiv (t := .base b) trivial]
    simp only [BaseSet.contains, Panicky.ok.injEq, decide_eq_true_eq]
    constructor
    · intro h; exact ⟨b, h, rfl⟩
    · rintro ⟨b', h, rfl⟩; exact h
  | u us =>
    unfold BaseSet.toConstraint
    dsimp only
    cases hs : Ranks.asSingleton us with
    | none => exact Iff.rfl
    | some i =>
      obtain ⟨h1, h2⟩ := asSingleton_iff.mp hs
      show (UConstraint.equiv (.base (.num (uintAt i)))).Holds σ T ↔ _
      rw [UConstraint.holds_equiv (t := .base (.num (uintAt i))) trivial]
      constructor
      · intro h
        exact ⟨_, h, baseSet_u_num.mpr (by rw [widthIx_uintAt]; exact h1)⟩
      · rintro ⟨b', rfl, h⟩
        obtain ⟨w, rfl⟩ := contains_uint h
        have := h2 _ (baseSet_u_num.mp h)
        rw [← this, uintAt_widthIx]
        rfl

theorem intset_toConstraint {σ : Assignment} (s : IntSet) (T : ValueType) :
    s.toConstraint.Holds σ T ↔ ∃ r, T = .ofMachine r ∧ s.contains r = true := by
  cases s with
  | single p =>
    show (UConstraint.equiv (.int p)).Holds σ T ↔ _
    rw [UConstraint.holds_equiv (t := .int p) trivial]
    simp only [IntSet.contains, decide_eq_true_eq]
    constructor
    · intro h; exact ⟨p, h, rfl⟩
    · rintro ⟨b', h, rfl⟩; exact h
  | z ps =>
    unfold IntSet.toConstraint
    dsimp only
    cases hs : Ranks.asSingleton ps with
    | none => exact Iff.rfl
    | some i =>
      obtain ⟨h1, h2⟩ := asSingleton_iff.mp hs
      show (UConstraint.equiv (.int (primAt i))).Holds σ T ↔ _
      rw [UConstraint.holds_equiv (t := .int (primAt i)) trivial]
      constructor
      · intro h
        exact ⟨_, h, (primContains_iff _ _).mpr (by rw [primIx_primAt]; exact h1)⟩
      · rintro ⟨r, rfl, h⟩
        have := h2 _ ((primContains_iff _ _).mp h)
        rw [← this, primAt_primIx]
        rfl

theorem baseset_toConstraint_ok (s : BaseSet) : s.toConstraint.Ok := by
  cases s with
  | single b => exact ⟨trivial, id⟩
  | u us =>
    unfold BaseSet.toConstraint
    dsimp only
    split
    · exact ⟨trivial, id⟩
    · trivial

theorem intset_toConstraint_ok (s : IntSet) : s.toConstraint.Ok := by
  cases s with
  | single b => exact ⟨trivial, id⟩
  | z us =>
    unfold IntSet.toConstraint
    dsimp only
    split
    · exact ⟨trivial, id⟩
    · trivial

/-- what unification of two constraints means when it does not involve variables -/
structure LeafMeets (σ : Assignment) (c1 c2 c0 : UConstraint) : Prop where
  ok : c0.Ok
  iff : ∀ T, c0.Holds σ T ↔ c1.Holds σ T ∧ c2.Holds σ T
  left : ∀ W, Sharp σ c1 W → Sharp σ c0 W ∧ c2.Holds σ W
  right : ∀ W, Sharp σ c2 W → Sharp σ c0 W ∧ c1.Holds σ W

theorem LeafMeets.symm {σ : Assignment} {c1 c2 c0 : UConstraint} (h : LeafMeets σ c1 c2 c0) :
    LeafMeets σ c2 c1 c0 :=
  ⟨h.ok, fun T => (h.iff T).trans and_comm, h.right, h.left⟩

theorem sharp_elem {σ : Assignment} {bs : BaseSet} {W : ValueType} (h : Sharp σ (.elem bs) W) :
    ∃ b, bs = .single b ∧ W = .base b := by
  rcases h with ⟨t, h, _⟩ | ⟨p, h, _⟩ | ⟨b, h, hw⟩
  · cases h
  · cases h
  · cases h; exact ⟨b, rfl, hw⟩

theorem sharp_numTree {σ : Assignment} {is : IntSet} {W : ValueType} (h : Sharp σ (.numTree is) W) :
    ∃ p, is = .single p ∧ W = .ofMachine p := by
  rcases h with ⟨t, h, _⟩ | ⟨p, h, hw⟩ | ⟨b, h, hw⟩
  · cases h
  · cases h; exact ⟨p, rfl, hw⟩
  · cases h

theorem sharp_equiv {σ : Assignment} {t : UType} {W : ValueType} (h : Sharp σ (.equiv t) W) : W = t.inst σ := by
  rcases h with ⟨t, h, _, _, hw⟩ | ⟨p, h, hw⟩ | ⟨b, h, hw⟩
  · cases h; exact hw.symm
  · cases h
  · cases h

theorem sharp_base (σ : Assignment) (b : BaseType) : Sharp σ (.equiv (.base b)) (.base b) :=
  .inl ⟨_, rfl, trivial, id, rfl⟩
theorem sharp_int (σ : Assignment) (p : MachineRep) : Sharp σ (.equiv (.int p)) (.ofMachine p) :=
  .inl ⟨_, rfl, trivial, id, rfl⟩

theorem unify_single_right {s r : BaseSet} {b : BaseType} (h : s.unify (.single b) = .ok (some r)) :
    r = .single b ∧ s.contains b = .ok true := by
  cases s with
  | single b1 =>
    simp only [BaseSet.unify, Panicky.ok.injEq] at h
    split at h
    · cases h; rename_i e; subst e; simp [BaseSet.contains]
    · cases h
  | u us =>
    simp only [BaseSet.unify] at h
    obtain ⟨c, h1, h2⟩ := Panicky.bind_eq_ok.mp h
    cases c with
    | false => cases h2
    | true => cases h2; exact ⟨rfl, h1⟩

theorem unify_single_left {s r : BaseSet} {b : BaseType} (h : (BaseSet.single b).unify s = .ok (some r)) :
    r = .single b ∧ s.contains b = .ok true := by
  cases s with
  | single b1 =>
    simp only [BaseSet.unify, Panicky.ok.injEq] at h
    split at h
    · cases h; rename_i e; subst e; simp [BaseSet.contains]
    · cases h
  | u us =>
    simp only [BaseSet.unify] at h
    obtain ⟨c, h1, h2⟩ := Panicky.bind_eq_ok.mp h
    cases c with
    | false => cases h2
    | true => cases h2; exact ⟨rfl, h1⟩

theorem leaf_elem_elem {σ : Assignment} {b1 b2 b0 : BaseSet} (h : b1.unify b2 = .ok (some b0)) :
    LeafMeets σ (.elem b1) (.elem b2) b0.toConstraint := by
  refine ⟨baseset_toConstraint_ok _, fun T => ?_, fun W hw => ?_, fun W hw => ?_⟩
  · rw [baseset_toConstraint]
    constructor
    · rintro ⟨b, rfl, hb⟩
      obtain ⟨h1, h2⟩ := (basesets_sound h b).mp hb
      exact ⟨⟨b, rfl, h1⟩, ⟨b, rfl, h2⟩⟩
    · rintro ⟨⟨b, rfl, h1⟩, ⟨b', he, h2⟩⟩
      cases he
      exact ⟨b, rfl, (basesets_sound h b).mpr ⟨h1, h2⟩⟩
  · obtain ⟨b, rfl, rfl⟩ := sharp_elem hw
    obtain ⟨rfl, hc⟩ := unify_single_left h
    exact ⟨sharp_base σ b, b, rfl, hc⟩
  · obtain ⟨b, rfl, rfl⟩ := sharp_elem hw
    obtain ⟨rfl, hc⟩ := unify_single_right h
    exact ⟨sharp_base σ b, b, rfl, hc⟩

theorem leaf_base_elem {σ : Assignment} {b : BaseType} {bs r : BaseSet} (h : bs.unify (.single b) = .ok (some r)) :
    LeafMeets σ (.equiv (.base b)) (.elem bs) r.toConstraint := by
  obtain ⟨rfl, hc⟩ := unify_single_right h
  have hf : (UType.base b).Firm := trivial
  refine ⟨⟨trivial, id⟩, fun T => ?_, fun W hw => ?_, fun W hw => ?_⟩
  · show (UConstraint.equiv (.base b)).Holds σ T ↔ _
    rw [UConstraint.holds_equiv hf]
    exact ⟨fun h => ⟨h, b, h, hc⟩, fun h => h.1⟩
  · have := sharp_equiv hw
    subst this
    exact ⟨sharp_base σ b, b, rfl, hc⟩
  · obtain ⟨b', rfl, rfl⟩ := sharp_elem hw
    have := of_decide_eq_true (Panicky.ok.inj hc)
    subst this
    exact ⟨sharp_base σ _, (UConstraint.holds_equiv hf).mpr rfl⟩

theorem leaf_int_elem {σ : Assignment} {p : MachineRep} {bs : BaseSet} {c0 : UConstraint} {st st' : Checker}
    (h : unifyPrimintBaseset p bs st = .ok (c0, st')) : LeafMeets σ (.equiv (.int p)) (.elem bs) c0 ∧ st = st' := by
  unfold unifyPrimintBaseset at h
  rw [TcM.ite_eq_ok] at h
  rcases h with ⟨_, h⟩ | ⟨_, h⟩
  · exact (TcM.fail_ne.mp h).elim
  · cases hof : IntSet.ofBaseSet bs with
    | none => rw [hof] at h; exact (TcM.fail_ne.mp h).elim
    | some is =>
      rw [hof] at h
      dsimp only at h
      rw [TcM.ite_eq_ok] at h
      rcases h with ⟨hc, h⟩ | ⟨_, h⟩
      · obtain ⟨rfl, rfl⟩ := TcM.pure_eq_ok.mp h
        have hcs := (C40_convert_sets.1 bs is hof p).mp hc
        have hf : (UType.int p).Firm := trivial
        have hbase : ValueType.ofMachine p = .base (.num p.bitWidth) := ofMachine_eq_base.mpr ⟨hcs.1, rfl⟩
        refine ⟨⟨trivial, fun T => ?_, fun W hw => ?_, fun W hw => ?_⟩, rfl⟩
        · rw [UConstraint.holds_equiv hf]
          constructor
          · rintro ⟨r, rfl, hr⟩
            have := of_decide_eq_true hr
            subst this
            exact ⟨rfl, _, hbase, hcs.2⟩
          · rintro ⟨rfl, _⟩
            exact ⟨p, rfl, decide_eq_true rfl⟩
        · have := sharp_equiv hw
          subst this
          exact ⟨.inr (.inl ⟨p, rfl, rfl⟩), _, hbase, hcs.2⟩
        · obtain ⟨b', rfl, rfl⟩ := sharp_elem hw
          have hb := of_decide_eq_true (Panicky.ok.inj hcs.2)
          subst hb
          rw [← hbase]
          exact ⟨.inr (.inl ⟨p, rfl, rfl⟩), (UConstraint.holds_equiv hf).mpr rfl⟩
      · exact (TcM.fail_ne.mp h).elim

theorem intset_unify_single {is r : IntSet} {p : MachineRep} (h : is.unify (.single p) = some r) :
    r = .single p ∧ is.contains p = true := by
  unfold IntSet.unify at h
  cases is with
  | single q =>
    dsimp only at h
    split at h
    · rename_i hc
      have := of_decide_eq_true hc
      subst this
      cases h
      exact ⟨rfl, decide_eq_true rfl⟩
    · cases h
  | z s =>
    dsimp only at h
    split at h
    · rename_i hc
      cases h
      exact ⟨rfl, hc⟩
    · cases h

theorem intset_single_unify {is r : IntSet} {p : MachineRep} (h : (IntSet.single p).unify is = some r) :
    r = .single p ∧ is.contains p = true := by
  unfold IntSet.unify at h
  dsimp only at h
  split at h
  · rename_i hc
    cases h
    exact ⟨rfl, hc⟩
  · cases h

theorem leaf_int_num {σ : Assignment} {p : MachineRep} {is r : IntSet} (h : is.unify (.single p) = some r) :
    LeafMeets σ (.equiv (.int p)) (.numTree is) r.toConstraint := by
  obtain ⟨rfl, hc⟩ := intset_unify_single h
  have hf : (UType.int p).Firm := trivial
  refine ⟨⟨trivial, id⟩, fun T => ?_, fun W hw => ?_, fun W hw => ?_⟩
  · show (UConstraint.equiv (.int p)).Holds σ T ↔ _
    rw [UConstraint.holds_equiv hf]
    exact ⟨fun h => ⟨h, p, h, hc⟩, fun h => h.1⟩
  · have := sharp_equiv hw
    subst this
    exact ⟨sharp_int σ p, p, rfl, hc⟩
  · obtain ⟨b', rfl, rfl⟩ := sharp_numTree hw
    have := of_decide_eq_true hc
    subst this
    exact ⟨sharp_int σ _, (UConstraint.holds_equiv hf).mpr rfl⟩

theorem leaf_base_num {σ : Assignment} {b : BaseType} {is : IntSet} {c0 : UConstraint} {st st' : Checker}
    (h : unifyBasetypeIntset b is st = .ok (c0, st')) :
    LeafMeets σ (.equiv (.base b)) (.numTree is) c0 ∧ st = st' := by
  unfold unifyBasetypeIntset at h
  cases b with
  | num w =>
    dsimp only at h
    rw [TcM.bind_eq_ok] at h
    obtain ⟨r, s1, h1, h2⟩ := h
    obtain ⟨h1', rfl⟩ := TcM.ofOption_eq_ok.mp h1
    rw [TcM.ite_eq_ok] at h2
    rcases h2 with ⟨_, h2⟩ | ⟨_, h2⟩
    · exact (TcM.fail_ne.mp h2).elim
    · obtain ⟨rfl, rfl⟩ := TcM.pure_eq_ok.mp h2
      have hl := leaf_int_num (σ := σ) h1'
      have hb : ∀ T, (UConstraint.equiv (.base (.num w))).Holds σ T ↔
          (UConstraint.equiv (.int ⟨false, w⟩)).Holds σ T := fun T => by
        rw [UConstraint.holds_equiv (t := .base (.num w)) trivial, UConstraint.holds_equiv (t := .int ⟨false, w⟩) trivial]
        exact Iff.rfl
      refine ⟨⟨hl.ok, fun T => ?_, fun W hw => ?_, fun W hw => ?_⟩, rfl⟩
      · rw [hb]; exact hl.iff T
      · have := sharp_equiv hw
        subst this
        exact hl.left _ (sharp_int σ ⟨false, w⟩)
      · obtain ⟨h1, h2⟩ := hl.right W hw
        exact ⟨h1, (hb W).mpr h2⟩
  | bool => exact (TcM.fail_ne.mp h).elim
  | char => exact (TcM.fail_ne.mp h).elim

theorem leaf_num_num {σ : Assignment} {i1 i2 i0 : IntSet} (h : i1.unify i2 = some i0) :
    LeafMeets σ (.numTree i1) (.numTree i2) (.numTree i0) := by
  have hu := (C40_unify_ints i1 i2).1 i0 h
  refine ⟨trivial, fun T => ?_, fun W hw => ?_, fun W hw => ?_⟩
  · constructor
    · rintro ⟨b, rfl, hb⟩
      obtain ⟨h1, h2⟩ := (hu b).mp hb
      exact ⟨⟨b, rfl, h1⟩, ⟨b, rfl, h2⟩⟩
    · rintro ⟨⟨b, rfl, h1⟩, ⟨b', he, h2⟩⟩
      have := ofMachine_inj he
      subst this
      exact ⟨b, rfl, (hu b).mpr ⟨h1, h2⟩⟩
  · obtain ⟨b, rfl, rfl⟩ := sharp_numTree hw
    obtain ⟨rfl, hc⟩ := intset_single_unify h
    exact ⟨.inr (.inl ⟨b, rfl, rfl⟩), b, rfl, hc⟩
  · obtain ⟨b, rfl, rfl⟩ := sharp_numTree hw
    obtain ⟨rfl, hc⟩ := intset_unify_single h
    exact ⟨.inr (.inl ⟨b, rfl, rfl⟩), b, rfl, hc⟩

theorem unifyBasesets_eq_ok {s t r : BaseSet} {st st' : Checker}
    (h : unifyBasesets s t st = .ok (r, st')) : s.unify t = .ok (some r) ∧ st = st' := by
  unfold unifyBasesets at h
  rw [TcM.bind_eq_ok] at h
  obtain ⟨x, s3, h2, h3⟩ := h
  obtain ⟨h2', rfl⟩ := TcM.ofPanicky_eq_ok.mp h2
  obtain ⟨rfl, rfl⟩ := TcM.ofOption_eq_ok.mp h3
  exact ⟨h2', rfl⟩

theorem leaf_elem_num {σ : Assignment} {bs : BaseSet} {is : IntSet} {c0 : UConstraint} {st st' : Checker}
    (h : unifyBasesetIntset bs is st = .ok (c0, st')) :
    LeafMeets σ (.elem bs) (.numTree is) c0 ∧ st = st' := by
  unfold unifyBasesetIntset at h
  rw [TcM.ite_eq_ok] at h
  rcases h with ⟨_, h⟩ | ⟨_, h⟩
  · exact (TcM.fail_ne.mp h).elim
  rw [TcM.ite_eq_ok] at h
  rcases h with ⟨_, h⟩ | ⟨_, h⟩
  · exact (TcM.fail_ne.mp h).elim
  rw [TcM.bind_eq_ok] at h
  obtain ⟨other, s1, h1, h⟩ := h
  obtain ⟨h1', rfl⟩ := TcM.ofOption_eq_ok.mp h1
  rw [TcM.bind_eq_ok] at h
  obtain ⟨r, s2, h2, h⟩ := h
  obtain ⟨rfl, rfl⟩ := TcM.pure_eq_ok.mp h
  obtain ⟨h2', rfl⟩ := unifyBasesets_eq_ok h2
  have hto := C40_convert_sets.2.2.1 is other h1'
  have hb := basesets_sound h2'
  have hnum : ∀ b, other.contains b = .ok true → ∃ w, b = .num w := by
    intro b hb
    cases is with
    | single p =>
      obtain ⟨sg, w⟩ := p
      cases sg
      · cases h1'
        exact ⟨w, (of_decide_eq_true (Panicky.ok.inj hb)).symm⟩
      · cases h1'
    | z ps =>
      cases h1'
      exact contains_uint hb
  refine ⟨⟨trivial, fun T => ⟨?_, ?_⟩, fun W hw => ?_, fun W hw => ?_⟩, rfl⟩
  · rintro ⟨b, rfl, hT⟩
    obtain ⟨hs, ht⟩ := (hb b).mp hT
    obtain ⟨w, rfl⟩ := hnum b ht
    exact ⟨⟨_, rfl, hs⟩, ⟨⟨false, w⟩, rfl, (hto w).mp ht⟩⟩
  · rintro ⟨⟨b, rfl, hT⟩, ⟨r', he, hr⟩⟩
    obtain ⟨hs, hb'⟩ := ofMachine_eq_base.mp he.symm
    subst hb'
    obtain ⟨sg, w⟩ := r'
    cases hs
    exact ⟨_, rfl, (hb _).mpr ⟨hT, (hto w).mpr hr⟩⟩
  · obtain ⟨b, rfl, rfl⟩ := sharp_elem hw
    obtain ⟨rfl, hc⟩ := unify_single_left h2'
    obtain ⟨w, rfl⟩ := hnum b hc
    exact ⟨.inr (.inr ⟨_, rfl, rfl⟩), ⟨⟨false, w⟩, rfl, (hto w).mp hc⟩⟩
  · obtain ⟨p, rfl, rfl⟩ := sharp_numTree hw
    obtain ⟨sg, w⟩ := p
    cases sg
    · cases h1'
      obtain ⟨rfl, hc⟩ := unify_single_right h2'
      exact ⟨.inr (.inr ⟨_, rfl, rfl⟩), ⟨_, rfl, hc⟩⟩
    · cases h1'

end Tc
end Doodle
