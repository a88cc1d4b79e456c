import Verif.Lemmas.TypeCheckFormat
import Verif.Lemmas.UnifyProj
import Verif.Lemmas.UnifyStep

/-!
Reading a type out of the state of the type checker: the type read is the type of the variable under one solution of
the state, the same for all variables.
-/

namespace Doodle
namespace Tc

/-! ### maps -/

/-- the entries of a map that `get` finds, with a function applied -/
def first {α β : Type} (m : List (String × α)) (g : α → β) : List (String × β) :=
  m.map fun e => (e.1, g ((TMap.get e.1 m).getD e.2))

theorem tget_map {α β : Type} {F : String → α → β} {l : String} : ∀ m : List (String × α),
    TMap.get l (m.map fun e => (e.1, F e.1 e.2)) = (TMap.get l m).map (F l)
  | [] => rfl
  | (k, x) :: m => by
    rw [List.map_cons, TMap.get, TMap.get]
    by_cases h : l = k
    · subst h; simp
    · rw [if_neg h, if_neg h, tget_map m]

theorem tget_first {α β : Type} {m : List (String × α)} {g : α → β} {l : String} :
    TMap.get l (first m g) = (TMap.get l m).map g := by
  unfold first
  rw [tget_map (F := fun k x => g ((TMap.get k m).getD x))]
  cases h : TMap.get l m <;> rfl

theorem tget_of_mem {α : Type} {l : String} {x : α} : ∀ {m : List (String × α)}, (l, x) ∈ m → ∃ y, TMap.get l m = some y
  | (k, z) :: m, h => by
    rw [TMap.get]
    by_cases e : l = k
    · exact ⟨z, if_pos e⟩
    · rw [if_neg e]
      rcases List.mem_cons.mp h with h | h
      · exact absurd (congrArg Prod.fst h) e
      · exact tget_of_mem h

theorem first_congr {α β : Type} {m : List (String × α)} {g h : α → β} (H : ∀ l x, TMap.get l m = some x → g x = h x) :
    first m g = first m h := by
  unfold first
  refine List.map_congr_left fun e he => ?_
  obtain ⟨y, hy⟩ := tget_of_mem (show (e.1, e.2) ∈ m from he)
  rw [hy]
  exact congrArg _ (H _ _ hy)

/-- one more than the largest index in a map -/
def above : List (Nat × Nat) → Nat
  | [] => 0
  | (i, _) :: m => max (i + 1) (above m)

theorem lt_above {i w : Nat} : ∀ {m : List (Nat × Nat)}, NMap.get i m = some w → i < above m
  | (j, x) :: m, h => by
    rw [NMap.get] at h
    rw [above]
    split at h
    · omega
    · have := lt_above h
      omega

/-! ### instances that agree -/

mutual
theorem inst_congr {f g : Assignment} : ∀ {t : UType}, (∀ w, t.HasVar w → f w = g w) → t.inst f = t.inst g
  | .hole, _ => rfl
  | .empty, _ => rfl
  | .viewObj, _ => rfl
  | .base _, _ => rfl
  | .int _, _ => rfl
  | .var v, h => h v rfl
  | .phantom t, h => by rw [UType.inst, UType.inst, inst_congr (t := t) h]
  | .seq t _, h => by rw [UType.inst, UType.inst, inst_congr (t := t) h]
  | .option t, h => by rw [UType.inst, UType.inst, inst_congr (t := t) h]
  | .tuple ts, h => by rw [UType.inst, UType.inst, instList_congr (ts := ts) h]
  | .record fs, h => by rw [UType.inst, UType.inst, instFields_congr (fs := fs) h]
theorem instList_congr {f g : Assignment} : ∀ {ts : List UType}, (∀ w, UType.HasVarList w ts → f w = g w) →
    UType.instList f ts = UType.instList g ts
  | [], _ => rfl
  | t :: ts, h => by
    rw [UType.instList, UType.instList, inst_congr (t := t) fun w hw => h w (Or.inl hw),
      instList_congr (ts := ts) fun w hw => h w (Or.inr hw)]
theorem instFields_congr {f g : Assignment} : ∀ {fs : List (String × UType)}, (∀ w, UType.HasVarFields w fs → f w = g w) →
    UType.instFields f fs = UType.instFields g fs
  | [], _ => rfl
  | (l, t) :: fs, h => by
    rw [UType.instFields, UType.instFields, inst_congr (t := t) fun w hw => h w (Or.inl hw),
      instFields_congr (fs := fs) fun w hw => h w (Or.inr hw)]
end

mutual
theorem size_hasVar {σ : Assignment} {w : Nat} : ∀ {t : UType}, t.HasVar w → sz (σ w) ≤ sz (t.inst σ)
  | .hole, h => h.elim
  | .empty, h => h.elim
  | .viewObj, h => h.elim
  | .base _, h => h.elim
  | .int _, h => h.elim
  | .var v, h => by
    have h : w = v := h
    rw [h]; exact Nat.le_refl _
  | .phantom t, h => by
    have := size_hasVar (σ := σ) (t := t) h
    show sizeOf _ ≤ sizeOf (ValueType.phantom (t.inst σ))
    rw [ValueType.phantom.sizeOf_spec]
    show sz _ ≤ 1 + sz _
    omega
  | .seq t _, h => by
    have := size_hasVar (σ := σ) (t := t) h
    exact Nat.le_of_lt (Nat.lt_of_le_of_lt this (size_seq _))
  | .option t, h => by
    have := size_hasVar (σ := σ) (t := t) h
    exact Nat.le_of_lt (Nat.lt_of_le_of_lt this (size_option _))
  | .tuple ts, h => by
    have := size_hasVarList (σ := σ) (ts := ts) h
    show sz _ ≤ sizeOf (ValueType.tuple (UType.instList σ ts))
    rw [ValueType.tuple.sizeOf_spec]
    omega
  | .record fs, h => by
    have := size_hasVarFields (σ := σ) (fs := fs) h
    show sz _ ≤ sizeOf (ValueType.record (UType.instFields σ fs))
    rw [ValueType.record.sizeOf_spec]
    omega
theorem size_hasVarList {σ : Assignment} {w : Nat} : ∀ {ts : List UType}, UType.HasVarList w ts →
    sz (σ w) ≤ sizeOf (UType.instList σ ts)
  | t :: ts, h => by
    rw [UType.instList, List.cons.sizeOf_spec]
    rcases h with h | h
    · have := size_hasVar (σ := σ) (t := t) h
      show _ ≤ 1 + sz _ + _
      omega
    · have := size_hasVarList (σ := σ) (ts := ts) h
      omega
theorem size_hasVarFields {σ : Assignment} {w : Nat} : ∀ {fs : List (String × UType)}, UType.HasVarFields w fs →
    sz (σ w) ≤ sizeOf (UType.instFields σ fs)
  | (l, t) :: fs, h => by
    rw [UType.instFields, List.cons.sizeOf_spec, Prod.mk.sizeOf_spec]
    rcases h with h | h
    · have := size_hasVar (σ := σ) (t := t) h
      show _ ≤ 1 + (1 + _ + sz _) + _
      omega
    · have := size_hasVarFields (σ := σ) (fs := fs) h
      omega
end

theorem size_inside {σ : Assignment} {w : Nat} {t : UType} (hv : ¬ t.IsVar) (h : t.HasVar w) : sz (σ w) < sz (t.inst σ) := by
  cases t with
  | var _ => exact absurd trivial hv
  | hole => exact h.elim
  | empty => exact h.elim
  | viewObj => exact h.elim
  | base _ => exact h.elim
  | int _ => exact h.elim
  | phantom t =>
    have := size_hasVar (σ := σ) (t := t) h
    show sizeOf _ < sizeOf (ValueType.phantom (t.inst σ))
    rw [ValueType.phantom.sizeOf_spec]
    show sz _ < 1 + sz _
    omega
  | seq t _ => exact Nat.lt_of_le_of_lt (size_hasVar (σ := σ) (t := t) h) (size_seq _)
  | option t => exact Nat.lt_of_le_of_lt (size_hasVar (σ := σ) (t := t) h) (size_option _)
  | tuple ts =>
    have := size_hasVarList (σ := σ) (ts := ts) h
    show sz _ < sizeOf (ValueType.tuple (UType.instList σ ts))
    rw [ValueType.tuple.sizeOf_spec]
    omega
  | record fs =>
    have := size_hasVarFields (σ := σ) (fs := fs) h
    show sz _ < sizeOf (ValueType.record (UType.instFields σ fs))
    rw [ValueType.record.sizeOf_spec]
    omega

/-! ### a solution from what is recorded -/

open Classical in
/-- the type of a variable, given the types of the variables inside it -/
noncomputable def pick (st : Checker) (f : Assignment) (v : Nat) : ValueType :=
  match st.known v with
  | .indefinite => .tuple []
  | .invariant (.elem bs) =>
    match bs.uniqueSolution with
    | .found b => .base b
    | _ => if h : ∃ b, bs.contains b = .ok true then .base h.choose else .tuple []
  | .invariant (.numTree is) =>
    match is.uniqueSolution with
    | .found r => .ofMachine r
    | _ => if h : ∃ r, is.contains r = true then .ofMachine h.choose else .tuple []
  | .invariant (.equiv t) => t.inst f
  | .invariant (.proj (.tupleWith m)) =>
    .tuple ((List.range (above m)).map fun i => match NMap.get i m with | some w => f w | none => .tuple [])
  | .invariant (.proj (.recordWith m)) => .record (first m f)
  | .invariant (.proj (.seqOf u)) => .seq (f u)
  | .invariant (.proj (.optOf u)) => .option (f u)
  | .variant id =>
    match st.store id with
    | some m => .union (first m (UType.inst f))
    | none => .tuple []

theorem pick_congr {st : Checker} {f g : Assignment} {v : Nat} (h : ∀ w, st.Inside w v → f w = g w) :
    pick st f v = pick st g v := by
  unfold Checker.Inside at h
  unfold pick
  cases hk : st.known v with
  | indefinite => rfl
  | variant id =>
    rw [hk] at h
    dsimp only at h ⊢
    cases hs : st.store id with
    | none => rfl
    | some m =>
      refine congrArg _ (first_congr fun l t ht => inst_congr fun w hw => h w ⟨m, l, t, hs, ht, hw⟩)
  | invariant c =>
    rw [hk] at h
    cases c with
    | elem bs => rfl
    | numTree is => rfl
    | equiv t => exact inst_congr h
    | proj p =>
      cases p with
      | seqOf u => exact congrArg _ (h u rfl)
      | optOf u => exact congrArg _ (h u rfl)
      | recordWith m => exact congrArg _ (first_congr fun l x hx => h x ⟨l, hx⟩)
      | tupleWith m =>
        dsimp only at h ⊢
        refine congrArg _ (List.map_congr_left fun i _ => ?_)
        cases hi : NMap.get i m with
        | none => rfl
        | some w => exact h w ⟨i, hi⟩

open Classical in
/-- the solution -/
noncomputable def solution (st : Checker) (hw : WellFounded st.Inside) : Assignment :=
  hw.fix fun v rec => pick st (fun w => if h : st.Inside w v then rec w h else .tuple []) v

theorem solution_eq {st : Checker} (hw : WellFounded st.Inside) (v : Nat) :
    solution st hw v = pick st (solution st hw) v := by
  unfold solution
  rw [WellFounded.fix_eq]
  refine pick_congr fun w h => ?_
  rw [dif_pos h]

theorem base_found {bs : BaseSet} {b : BaseType} (h : bs.uniqueSolution = .found b) : bs.contains b = .ok true := by
  cases bs with
  | single c =>
    cases h
    simp [BaseSet.contains]
  | u us =>
    unfold BaseSet.uniqueSolution at h
    dsimp only at h
    split at h
    · cases h
    · split at h
      · rename_i i hi
        cases h
        have hm := (uniqueSolution_iff.mp hi).1
        have e : widthIx (uintAt i) = i := (by decide : ∀ i, widthIx (uintAt i) = i) i
        show Panicky.ok (decide (us (widthIx (uintAt i)) ≠ .excluded)) = _
        rw [e]
        exact congrArg _ (decide_eq_true hm)
      · cases h

theorem int_found {is : IntSet} {r : Num.MachineRep} (h : is.uniqueSolution = .found r) : is.contains r = true := by
  cases is with
  | single c =>
    cases h
    simp [IntSet.contains]
  | z us =>
    unfold IntSet.uniqueSolution at h
    dsimp only at h
    split at h
    · cases h
    · split at h
      · rename_i i hi
        cases h
        have hm := (uniqueSolution_iff.mp hi).1
        have e : primIx (primAt i) = i := (by decide : ∀ i, primIx (primAt i) = i) i
        show PrimIntSet.contains us (primAt i) = true
        unfold PrimIntSet.contains
        rw [e]
        unfold Member at hm
        cases hu : us i <;> simp_all [Rank.isExcluded]
      · cases h

theorem solution_solves {st : Checker} (hS : st.Sane) : Solves (solution st hS.finite) st where
  same v w h := by
    rw [solution_eq, solution_eq]
    unfold pick
    rw [known_congr h]
  holds v := by
    generalize hσ : solution st hS.finite = σ
    have e : σ v = pick st σ v := by rw [← hσ]; exact solution_eq _ _
    unfold pick at e
    cases hk : st.known v with
    | indefinite => trivial
    | variant id =>
      rw [hk] at e
      obtain ⟨m, hm⟩ := hS.store v id hk
      refine ⟨m, hm, fun l t ht => ?_⟩
      dsimp only at e
      rw [hm] at e
      exact ⟨_, t.inst σ, e, by rw [tget_first, ht]; rfl, rfl⟩
    | invariant c =>
      rw [hk] at e
      cases c with
      | elem bs =>
        dsimp only at e
        cases hu : bs.uniqueSolution with
        | found b =>
          rw [hu] at e
          exact ⟨b, e, base_found hu⟩
        | _ =>
          rw [hu] at e
          dsimp only at e
          have hx := hS.bases v bs hk
          rw [dif_pos hx] at e
          exact ⟨_, e, hx.choose_spec⟩
      | numTree is =>
        dsimp only at e
        cases hu : is.uniqueSolution with
        | found b =>
          rw [hu] at e
          exact ⟨b, e, int_found hu⟩
        | _ =>
          rw [hu] at e
          dsimp only at e
          have hx := hS.ints v is hk
          rw [dif_pos hx] at e
          exact ⟨_, e, hx.choose_spec⟩
      | equiv t => exact Or.inr (Or.inr e)
      | proj p =>
        cases p with
        | seqOf u => exact e
        | optOf u => exact e
        | recordWith m => exact ⟨_, e, fun l w hl => by rw [tget_first, hl]; rfl⟩
        | tupleWith m =>
          refine ⟨_, e, fun i w hi => ?_⟩
          rw [List.getElem?_map, List.getElem?_range (lt_above hi)]
          simp [hi]

/-- a state with a solution is sane -/
theorem sane_of_solves {st : Checker} {σ : Assignment} (hg : Good st) (h : Solves σ st) : st.Sane where
  finite := by
    refine Subrelation.wf (r := fun w v => sz (σ w) < sz (σ v)) (fun {w v} hi => ?_) (measure fun v => sz (σ v)).wf
    have hh := h.holds v
    show sz (σ w) < sz (σ v)
    unfold Checker.Inside at hi
    cases hk : st.known v with
    | indefinite => rw [hk] at hi; exact hi.elim
    | variant id =>
      rw [hk] at hi hh
      obtain ⟨m, l, t, hm, ht, hw⟩ := hi
      obtain ⟨m', hm', hh⟩ := hh
      rw [hm] at hm'; cases hm'
      obtain ⟨bs, U, e, hU, e'⟩ := hh l t ht
      rw [e]
      have h1 := size_hasVar (σ := σ) hw
      rw [← e'] at h1
      have h2 := tget_lt hU
      show _ < sizeOf (ValueType.union bs)
      rw [ValueType.union.sizeOf_spec]
      unfold sz at *
      omega
    | invariant c =>
      rw [hk] at hi hh
      cases c with
      | elem _ => exact hi.elim
      | numTree _ => exact hi.elim
      | equiv t =>
        have hok := hg.con _ _ (known_get hk (by simp))
        rw [(UConstraint.holds_equiv hok.1).mp hh]
        exact size_inside hok.2 hi
      | proj p =>
        cases p with
        | seqOf u =>
          have hi : w = u := hi
          have hh : σ v = .seq (σ u) := hh
          rw [hh, hi]; exact size_seq _
        | optOf u =>
          have hi : w = u := hi
          have hh : σ v = .option (σ u) := hh
          rw [hh, hi]; exact size_option _
        | recordWith m =>
          obtain ⟨l, hl⟩ := hi
          obtain ⟨Fs, e, hh⟩ := hh
          rw [e]; exact size_field (hh l w hl)
        | tupleWith m =>
          obtain ⟨i, hl⟩ := hi
          obtain ⟨Us, e, hh⟩ := hh
          rw [e]; exact size_get (hh i w hl)
  store v id hk := by
    have hh := h.holds v
    rw [hk] at hh
    exact ⟨hh.choose, hh.choose_spec.1⟩
  bases v bs hk := by
    have hh := h.holds v
    rw [hk] at hh
    obtain ⟨b, _, hb⟩ := hh
    exact ⟨b, hb⟩
  ints v is hk := by
    have hh := h.holds v
    rw [hk] at hh
    obtain ⟨b, _, hb⟩ := hh
    exact ⟨b, hb⟩

/-! ### reading a type -/

theorem andThen_eq {α β : Type} {x : Outcome Unit (Option α)} {f : α → Outcome Unit (Option β)} {b : β}
    (h : andThen x f = .ok (some b)) : ∃ a, x = .ok (some a) ∧ f a = .ok (some b) := by
  unfold andThen at h
  cases x with
  | ok o =>
    cases o with
    | none => cases h
    | some a => exact ⟨a, rfl, h⟩
  | err _ => cases h
  | panic => cases h
  | fuel => cases h

/-- what is read for a type -/
def ReadsAs (σ : Assignment) (t : UType) (T : ValueType) : Prop := ValueType.Le (t.inst σ) T ∧ T ≠ .empty

theorem reifyList_sound {σ : Assignment} {rec : UType → Outcome Unit (Option ValueType)}
    (hr : ∀ t T, t.Firm → rec t = .ok (some T) → ReadsAs σ t T) : ∀ {ts : List UType} {Ts : List ValueType},
    UType.FirmList ts → reifyList rec ts = .ok (some Ts) → ValueType.LeList (UType.instList σ ts) Ts
  | [], _, _, h => by cases h; exact .nil
  | t :: ts, _, hf, h => by
    obtain ⟨T, h1, h⟩ := andThen_eq h
    obtain ⟨Ts, h2, h⟩ := andThen_eq h
    cases h
    exact .cons (hr t T hf.1 h1).1 (reifyList_sound hr hf.2 h2)

theorem reifyFields_sound {σ : Assignment} {rec : UType → Outcome Unit (Option ValueType)}
    (hr : ∀ t T, t.Firm → rec t = .ok (some T) → ReadsAs σ t T) : ∀ {fs : List (String × UType)} {Fs : List (String × ValueType)},
    UType.FirmFields fs → reifyFields rec fs = .ok (some Fs) → ValueType.LeFields (UType.instFields σ fs) Fs
  | [], _, _, h => by cases h; exact .nil
  | (l, t) :: fs, _, hf, h => by
    obtain ⟨T, h1, h⟩ := andThen_eq h
    obtain ⟨Ts, h2, h⟩ := andThen_eq h
    cases h
    exact .cons (hr t T hf.1 h1).1 (reifyFields_sound hr hf.2 h2)

theorem reifyBranches_sound {σ : Assignment} {rec : UType → Outcome Unit (Option ValueType)}
    (hr : ∀ t T, t.Firm → rec t = .ok (some T) → ReadsAs σ t T) : ∀ {m : List (String × UType)} {bs : List (String × ValueType)},
    (∀ l t, (l, t) ∈ m → t.Firm) → reifyBranches rec m = .ok (some bs) → ∀ l t, TMap.get l m = some t →
    ∃ T, TMap.get l bs = some T ∧ ValueType.Le (t.inst σ) T
  | [], _, _, _, _, _, h => by cases h
  | (k, u) :: m, bs, hf, h, l, t, ht => by
    obtain ⟨T, h1, h⟩ := andThen_eq h
    obtain ⟨Ts, h2, h⟩ := andThen_eq h
    obtain ⟨hle, hne⟩ := hr u T (hf k u (by simp)) h1
    have h : (Outcome.ok (some ((k, T) :: Ts)) : Outcome Unit _) = Outcome.ok (some bs) := by
      rw [← h]
      cases T <;> first | rfl | exact absurd rfl hne
    cases h
    rw [TMap.get] at ht ⊢
    by_cases e : l = k
    · rw [if_pos e] at ht ⊢
      cases ht
      exact ⟨T, rfl, hle⟩
    · rw [if_neg e] at ht ⊢
      exact reifyBranches_sound hr (fun l t h => hf l t (by simp [h])) h2 l t ht

theorem leMap_of_get {cs : List (String × ValueType)} : ∀ {bs : List (String × ValueType)},
    (∀ e ∈ bs, ∃ U, TMap.get e.1 cs = some U ∧ ValueType.Le e.2 U) → ValueType.LeMap bs cs
  | [], _ => .nil
  | (k, t) :: bs, h => by
    obtain ⟨U, h1, h2⟩ := h (k, t) (by simp)
    exact .cons h1 h2 (leMap_of_get fun e he => h e (by simp [he]))

theorem toWhnf_firm {o : Orders} {n k : Nat} {st : Checker} {t : UType} {w : VType} (hv : ¬ t.IsVar)
    (h : toWhnf o n st k t = .ok w) : w = .abstract t := by
  cases k with
  | zero => cases h
  | succ k =>
    unfold toWhnf at h
    cases hi : isInfinite o n st t with
    | ok b =>
      rw [hi] at h
      cases b with
      | true => cases h
      | false =>
        cases t with
        | var _ => exact absurd trivial hv
        | _ => cases h; rfl
    | err _ => rw [hi] at h; cases h
    | panic => rw [hi] at h; cases h
    | fuel => rw [hi] at h; cases h

theorem getCanonical_eq {st : Checker} {v c : Nat} (h : st.aliases.getCanonical v = .ok c) : c = rt st v := by
  have : getCanonicalVar v st = .ok (c, st) := by
    unfold getCanonicalVar
    rw [h]
  exact (getCanonicalVar_eq_ok this).2.1

/-- what `reify` goes on with for a variable -/
theorem substituteVar_eq {o : Orders} {n : Nat} {st : Checker} {v : Nat} {w : VType} (hg : Good st)
    (h : substituteVar o n st v = .ok (some w)) :
    (∃ t, st.known v = .invariant (.equiv t) ∧ w = .abstract t) ∨
    (∃ bs, st.known v = .invariant (.elem bs) ∧ w = .base bs) ∨
    (∃ is, st.known v = .invariant (.numTree is) ∧ w = .int is) ∨
    (∃ id, st.known v = .variant id ∧ w = .union id) ∨
    (∃ p, st.known v = .invariant (.proj p) ∧ w = projVType p) := by
  unfold substituteVar at h
  cases ho : occurs o n v st with
  | err _ => rw [ho] at h; cases h
  | panic => rw [ho] at h; cases h
  | fuel => rw [ho] at h; cases h
  | ok r =>
    rw [ho] at h
    dsimp only at h
    cases hc : st.aliases.getCanonical v with
    | panic => rw [hc] at h; cases h
    | ok c =>
      rw [hc] at h
      have e := getCanonical_eq hc
      cases hx : st.constraints[c]? with
      | none => rw [show Outcome.ofPanicky (Panicky.ok c : Panicky Nat) = (Outcome.ok c : Outcome Unit Nat) from rfl] at h
                change (do let cs ← Outcome.ofPanicky (Panicky.unwrap st.constraints[c]?); _) = _ at h
                rw [hx] at h; cases h
      | some cs =>
        change (do let cs ← Outcome.ofPanicky (Panicky.unwrap st.constraints[c]?); _) = _ at h
        rw [hx] at h
        have hk := known_of_get (st := st) (v := v) (e ▸ hx)
        cases cs with
        | indefinite => cases h
        | variant id => cases h; exact Or.inr (Or.inr (Or.inr (Or.inl ⟨id, hk, rfl⟩)))
        | invariant k =>
          cases k with
          | elem bs => cases h; exact Or.inr (Or.inl ⟨bs, hk, rfl⟩)
          | numTree is => cases h; exact Or.inr (Or.inr (Or.inl ⟨is, hk, rfl⟩))
          | proj p => cases h; exact Or.inr (Or.inr (Or.inr (Or.inr ⟨p, hk, rfl⟩)))
          | equiv t =>
            refine Or.inl ⟨t, hk, ?_⟩
            change (do let w ← toWhnf o n st n t; Outcome.ok (some w)) = _ at h
            cases hw : toWhnf o n st n t with
            | ok w' =>
              rw [hw] at h
              cases h
              exact toWhnf_firm (hg.con _ _ hx).2 hw
            | err _ => rw [hw] at h; cases h
            | panic => rw [hw] at h; cases h
            | fuel => rw [hw] at h; cases h

/-- **The type read is at least the type under the solution.** -/
theorem reify_sound {o : Orders} {n : Nat} {st : Checker} (hg : Good st) (hS : st.Sane) :
    ∀ (k : Nat) (t : UType) (T : ValueType), t.Firm → reify o n st k t = .ok (some T) →
      ReadsAs (solution st hS.finite) t T := by
  generalize hσ : solution st hS.finite = σ
  have hsol : Solves σ st := hσ ▸ solution_solves hS
  have heq : ∀ v, σ v = pick st σ v := fun v => by rw [← hσ]; exact solution_eq _ _
  intro k
  induction k with
  | zero => intro t T _ h; cases h
  | succ k ih =>
    intro t T hf h
    unfold reify at h
    cases t with
    | hole => exact hf.elim
    | empty => exact hf.elim
    | viewObj => cases h; exact ⟨.viewObj, nofun⟩
    | base b => cases h; exact ⟨.base, nofun⟩
    | int r =>
      cases h
      refine ⟨?_, ?_⟩
      · show ValueType.Le (.ofMachine r) (.ofMachine r)
        obtain ⟨s, w⟩ := r
        cases s
        · exact .base
        · exact .signed
      · obtain ⟨s, w⟩ := r
        cases s <;> exact nofun
    | tuple ts =>
      obtain ⟨Ts, h1, h2⟩ := andThen_eq h
      cases h2
      exact ⟨.tuple (reifyList_sound ih hf h1), nofun⟩
    | record fs =>
      obtain ⟨Ts, h1, h2⟩ := andThen_eq h
      cases h2
      exact ⟨.record (reifyFields_sound ih hf h1), nofun⟩
    | seq t b =>
      obtain ⟨T', h1, h2⟩ := andThen_eq h
      cases h2
      exact ⟨.seq (ih t T' hf h1).1, nofun⟩
    | option t =>
      obtain ⟨T', h1, h2⟩ := andThen_eq h
      cases h2
      exact ⟨.option (ih t T' hf h1).1, nofun⟩
    | phantom t =>
      obtain ⟨T', h1, h2⟩ := andThen_eq h
      cases h2
      exact ⟨.phantom (ih t T' hf h1).1, nofun⟩
    | var uv =>
      dsimp only at h
      cases hc : st.aliases.getCanonical uv with
      | panic => rw [hc] at h; cases h
      | ok v =>
        rw [hc] at h
        have e := getCanonical_eq hc
        have hsame : st.Same v uv := by rw [e]; exact same_rt hg uv
        change (match substituteVar o n st v with
          | .err _ => _ | .panic => _ | .fuel => _ | .ok none => _ | .ok (some (.base bs)) => _ | .ok (some (.int is)) => _
          | .ok (some (.abstract ut)) => _ | .ok (some (.union id)) => _ | .ok (some .implicit) => _) = _ at h
        show ReadsAs σ (.var uv) T
        have hread : ∀ T', ValueType.Le (σ v) T' ∧ T' ≠ .empty → ReadsAs σ (.var uv) T' := fun T' hh => by
          refine ⟨?_, hh.2⟩
          show ValueType.Le (σ uv) T'
          rw [← hsol.same _ _ hsame]
          exact hh.1
        have hv := heq v
        unfold pick at hv
        cases hs : substituteVar o n st v with
        | err _ => rw [hs] at h; cases h
        | panic => rw [hs] at h; cases h
        | fuel => rw [hs] at h; cases h
        | ok ow =>
          cases ow with
          | none => rw [hs] at h; cases h
          | some w =>
            rw [hs] at h
            apply hread
            rcases substituteVar_eq hg hs with ⟨t, hk, rfl⟩ | ⟨bs, hk, rfl⟩ | ⟨is, hk, rfl⟩ | ⟨id, hk, rfl⟩ | ⟨p, hk, rfl⟩
            · dsimp only at h
              rw [hk] at hv
              have hok := hg.con _ _ (known_get hk (by simp))
              rw [hv]
              exact ih t T hok.1 h
            · dsimp only at h
              rw [hk] at hv
              dsimp only at hv
              cases hu : bs.uniqueSolution with
              | found b =>
                rw [hu] at h hv
                cases h
                rw [hv]
                exact ⟨.base, nofun⟩
              | noSolution => rw [hu] at h; cases h
              | multiple => rw [hu] at h; cases h
            · dsimp only at h
              rw [hk] at hv
              dsimp only at hv
              cases hu : is.uniqueSolution with
              | found b =>
                rw [hu] at h hv
                cases h
                rw [hv]
                obtain ⟨s, w⟩ := b
                cases s
                · exact ⟨.base, nofun⟩
                · exact ⟨.signed, nofun⟩
              | noSolution => rw [hu] at h; cases h
              | multiple => rw [hu] at h; cases h
            · dsimp only at h
              rw [hk] at hv
              dsimp only at hv
              unfold reifyUnion at h
              cases hm : st.store id with
              | none => rw [hm] at h; cases h
              | some m =>
                rw [hm] at h hv
                obtain ⟨bs, h1, h2⟩ := andThen_eq h
                cases h2
                rw [hv]
                refine ⟨.union (leMap_of_get fun e he => ?_), nofun⟩
                unfold first at he
                obtain ⟨e0, he0, rfl⟩ := List.mem_map.mp he
                obtain ⟨y, hy⟩ := tget_of_mem (show (e0.1, e0.2) ∈ m from he0)
                obtain ⟨U, hU, hle⟩ := reifyBranches_sound ih (hg.var id m hm) h1 e0.1 y hy
                refine ⟨U, hU, ?_⟩
                dsimp only
                rw [hy]
                exact hle
            · rw [hk] at hv
              cases p with
              | seqOf u =>
                dsimp only at hv
                rw [hv]
                exact ih (.seqOf (.var u)) T trivial h
              | optOf u =>
                dsimp only at hv
                rw [hv]
                exact ih (.option (.var u)) T trivial h
              | tupleWith _ => cases h
              | recordWith _ => cases h

/-! ### the occurs check -/

theorem forAll_mem {α : Type} {f : α → Outcome Unit Unit} : ∀ {xs : List α}, forAll f xs = .ok () → ∀ x ∈ xs, f x = .ok ()
  | y :: xs, h, x, hx => by
    unfold forAll at h
    cases hy : f y with
    | ok u =>
      rw [hy] at h
      rcases List.mem_cons.mp hx with e | hx
      · rw [e]; exact hy
      · exact forAll_mem (xs := xs) h x hx
    | err _ => rw [hy] at h; cases h
    | panic => rw [hy] at h; cases h
    | fuel => rw [hy] at h; cases h

theorem hasVarList_mem {w : Nat} : ∀ {ts : List UType}, UType.HasVarList w ts → ∃ t ∈ ts, t.HasVar w
  | t :: ts, h => by
    rcases h with h | h
    · exact ⟨t, by simp, h⟩
    · obtain ⟨t', h1, h2⟩ := hasVarList_mem h
      exact ⟨t', by simp [h1], h2⟩

theorem hasVarFields_mem {w : Nat} : ∀ {fs : List (String × UType)}, UType.HasVarFields w fs → ∃ e ∈ fs, e.2.HasVar w
  | (l, t) :: ts, h => by
    rcases h with h | h
    · exact ⟨(l, t), by simp, h⟩
    · obtain ⟨t', h1, h2⟩ := hasVarFields_mem h
      exact ⟨t', by simp [h1], h2⟩

/-- the parts of what is recorded were visited -/
theorem inside_visited {o : Orders} (ho : o.Lists) {st : Checker} {rec : UType → Outcome Unit Unit} {v : Nat}
    (h : occursInConstraints o rec st (st.known v) = .ok ()) {w : Nat} (hi : st.Inside w v) :
    ∃ t : UType, t.HasVar w ∧ rec t = .ok () := by
  unfold Checker.Inside at hi
  unfold occursInConstraints at h
  cases hk : st.known v with
  | indefinite => rw [hk] at hi; exact hi.elim
  | variant id =>
    rw [hk] at hi h
    obtain ⟨m, l, t, hm, ht, hw⟩ := hi
    dsimp only at h
    rw [hm] at h
    exact ⟨t, hw, forAll_mem h (l, t) ((ho.entries m).mem_iff.mpr (tget_mem ht))⟩
  | invariant c =>
    rw [hk] at hi h
    cases c with
    | elem _ => exact hi.elim
    | numTree _ => exact hi.elim
    | equiv t => exact ⟨t, hi, h⟩
    | proj p =>
      cases p with
      | seqOf u => exact ⟨.var u, hi, h⟩
      | optOf u => exact ⟨.var u, hi, h⟩
      | tupleWith m =>
        obtain ⟨i, hx⟩ := hi
        exact ⟨.var w, rfl, forAll_mem h (i, w) (nget_mem hx)⟩
      | recordWith m =>
        obtain ⟨l, hx⟩ := hi
        exact ⟨.var w, rfl, forAll_mem h (l, w) (tget_mem hx)⟩

theorem occursIn_acc {o : Orders} (ho : o.Lists) {st : Checker} {v : Nat} : ∀ (n : Nat) (t : UType),
    occursIn o st v n t = .ok () → ∀ w, t.HasVar w → Acc st.Inside w := by
  intro n
  induction n with
  | zero => intro t h; cases h
  | succ n ih =>
    intro t h w hw
    unfold occursIn at h
    cases t with
    | hole => exact hw.elim
    | empty => exact hw.elim
    | viewObj => exact hw.elim
    | int _ => exact hw.elim
    | base _ => exact hw.elim
    | tuple ts =>
      obtain ⟨t, h1, h2⟩ := hasVarList_mem hw
      exact ih t (forAll_mem h t h1) w h2
    | record fs =>
      obtain ⟨e, h1, h2⟩ := hasVarFields_mem hw
      exact ih e.2 (forAll_mem h e h1) w h2
    | seq t _ => exact ih t h w hw
    | option t => exact ih t h w hw
    | phantom t => exact ih t h w hw
    | var v1 =>
      have hw : w = v1 := hw
      subst hw
      dsimp only at h
      cases ha : st.aliases.isAliased v w with
      | panic => rw [ha] at h; cases h
      | ok al =>
        rw [ha] at h
        cases al with
        | true => cases h
        | false =>
          change (do let c ← Outcome.ofPanicky (st.aliases.getCanonical w); _) = _ at h
          cases hc : st.aliases.getCanonical w with
          | panic => rw [hc] at h; cases h
          | ok c =>
            rw [hc] at h
            have e := getCanonical_eq hc
            change (do let cs ← Outcome.ofPanicky (Panicky.unwrap st.constraints[c]?); _) = _ at h
            cases hx : st.constraints[c]? with
            | none => rw [hx] at h; cases h
            | some cs =>
              rw [hx] at h
              have hk := known_of_get (st := st) (v := w) (e ▸ hx)
              change occursInConstraints o (occursIn o st v n) st cs = _ at h
              rw [← hk] at h
              refine Acc.intro _ fun u hu => ?_
              obtain ⟨t, h1, h2⟩ := inside_visited ho h hu
              exact ih t h2 u h1

/-- **When the occurs check succeeds for every class, no type is infinite.** -/
theorem finite_of_occurs {o : Orders} (ho : o.Lists) {st : Checker} (hg : Good st)
    (h : ∀ v, rt st v = v → v < st.constraints.length → ∃ n, occurs o n v st = .ok ((), st)) : WellFounded st.Inside := by
  refine ⟨fun v => ?_⟩
  refine Acc.intro _ fun w hw => ?_
  by_cases hv : rt st v < st.constraints.length
  · obtain ⟨n, hn⟩ := h (rt st v) (rt_rt hg v) hv
    have hx := List.getElem?_eq_getElem hv
    have hk := known_of_get (st := st) (v := v) hx
    have hn : TcM.read (fun _ => occursInConstraints o (occursIn o st (rt st v) n) st (st.known v)) st = .ok ((), st) := by
      rw [hk, ← hn]
      unfold occurs TcM.read
      dsimp only
      rw [hx]
      rfl
    unfold TcM.read at hn
    dsimp only at hn
    cases ho' : occursInConstraints o (occursIn o st (rt st v) n) st (st.known v) with
    | ok u =>
      obtain ⟨t, h1, h2⟩ := inside_visited ho ho' hw
      exact occursIn_acc ho n t h2 w h1
    | err _ => rw [ho'] at hn; cases hn
    | panic => rw [ho'] at hn; cases hn
    | fuel => rw [ho'] at hn; cases hn
  · have : st.known v = .indefinite := by
      unfold Checker.known
      rw [List.getD_eq_getElem?_getD, List.getElem?_eq_none (Nat.le_of_not_lt hv)]
      rfl
    unfold Checker.Inside at hw
    rw [this] at hw
    exact hw.elim

end Tc
end Doodle
